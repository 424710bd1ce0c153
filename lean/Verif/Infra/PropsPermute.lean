/-
C170: settings can be passed to the constructor of an endgame in any order.
-/
import Verif.Infra.Permute
import Mathlib.Data.List.Perm.Basic
import Mathlib.Data.List.Nodup

namespace B2.Infra.Permute

variable {T : Type} [DecidableEq T] {V : T → Type}

/-! ### Specification -/

/-- `l` holds a value for each of the types `ts`, in that order: the argument of that type where there
is one, otherwise the default. -/
structure Filled (dflt : ∀ t, V t) (ts : List T) (args l : List (Σ t, V t)) : Prop where
  types : l.map Sigma.fst = ts
  given : ∀ a ∈ l, a.1 ∈ args.map Sigma.fst → a ∈ args
  default : ∀ a ∈ l, a.1 ∉ args.map Sigma.fst → a.2 = dflt a.1

/-! ### Proofs -/

theorem indexByType_notMem {t : T} {l : List T} (h : t ∉ l) : indexByType t l = some l.length := by
  induction l with
  | nil => rfl
  | cons u l ih =>
    rw [List.mem_cons, not_or] at h
    rw [indexByType, if_neg h.1, ih h.2]
    rfl

theorem indexByType_le {t : T} {l : List T} : ∀ {n : ℕ}, indexByType t l = some n → n ≤ l.length := by
  induction l with
  | nil => intro n h; cases h; exact Nat.le_refl _
  | cons u l ih =>
    intro n h
    rw [indexByType] at h
    by_cases hu : t = u
    · rw [if_pos hu] at h
      split at h
      · split at h
        · cases h; exact Nat.zero_le _
        · cases h
      · cases h
    · rw [if_neg hu] at h
      cases hi : indexByType t l with
      | none => rw [hi] at h; cases h
      | some k =>
        rw [hi] at h
        cases h
        exact Nat.succ_le_succ (ih hi)

/-- The place behind the list is returned for a type that does not occur, and only for such a type. -/
theorem indexByType_length {t : T} {l : List T} : indexByType t l = some l.length ↔ t ∉ l := by
  refine ⟨fun h => ?_, indexByType_notMem⟩
  induction l with
  | nil => simp
  | cons u l ih =>
    rw [indexByType] at h
    by_cases hu : t = u
    · rw [if_pos hu] at h
      split at h
      · split at h
        · simp at h
        · cases h
      · cases h
    · rw [if_neg hu] at h
      cases hi : indexByType t l with
      | none => rw [hi] at h; cases h
      | some k =>
        rw [hi] at h
        have : k = l.length := by simpa using h
        rw [List.mem_cons, not_or]
        exact ⟨hu, ih (by rw [hi, this])⟩

/-- A type is found exactly when it occurs at most once. -/
theorem indexByType_isSome {t : T} {l : List T} :
    (indexByType t l).isSome = true ↔ l.count t ≤ 1 := by
  induction l with
  | nil => simp [indexByType]
  | cons u l ih =>
    rw [indexByType]
    by_cases hu : t = u
    · subst hu
      rw [if_pos rfl, List.count_cons_self]
      by_cases hm : t ∈ l
      · have hc : 0 < l.count t := List.count_pos_iff.2 hm
        have hn : ¬ (l.count t + 1 ≤ 1) := by omega
        simp only [hn, iff_false]
        cases hi : indexByType t l with
        | none => simp
        | some n =>
          have : n ≠ l.length := fun h => indexByType_length.1 (by rw [hi, h]) hm
          simp [this]
      · rw [indexByType_notMem hm, List.count_eq_zero_of_not_mem hm]
        simp
    · rw [if_neg hu, Option.isSome_map, ih, List.count_cons_of_ne (Ne.symm hu)]

theorem indexByType_get {t : T} {l : List T} : ∀ {n : ℕ}, indexByType t l = some n → t ∈ l →
    l[n]? = some t := by
  induction l with
  | nil => intro n _ h; cases h
  | cons u l ih =>
    intro n h hm
    rw [indexByType] at h
    by_cases hu : t = u
    · rw [if_pos hu] at h
      split at h
      · split at h
        · cases h; simp [hu]
        · cases h
      · cases h
    · rw [if_neg hu] at h
      cases hi : indexByType t l with
      | none => rw [hi] at h; cases h
      | some k =>
        rw [hi] at h
        cases h
        rw [List.mem_cons] at hm
        simpa using ih hi (hm.resolve_left hu)

theorem valueAt_some {t : T} {l : List (Σ t, V t)} {i : ℕ} {v : V t} :
    valueAt t l i = some v ↔ l[i]? = some ⟨t, v⟩ := by
  unfold valueAt
  cases h : l[i]? with
  | none => simp
  | some a =>
    obtain ⟨u, w⟩ := a
    by_cases hu : u = t
    · subst hu; simp
    · simp [hu]

/-- The value found for a type. -/
theorem get_some (dflt : ∀ t, V t) {ts : List T} {args : List (Σ t, V t)} {t : T} (ht : t ∈ ts)
    (h1 : ts.count t ≤ 1) (h2 : (args.map Sigma.fst).count t ≤ 1) :
    ∃ i j v, indexByType t (args.map Sigma.fst) = some i ∧ indexByType t ts = some j ∧
      getByIndex t i j args (ts.map fun t => ⟨t, dflt t⟩) = some v ∧
      (t ∈ args.map Sigma.fst → ⟨t, v⟩ ∈ args) ∧ (t ∉ args.map Sigma.fst → v = dflt t) := by
  obtain ⟨i, hi⟩ := Option.isSome_iff_exists.1 (indexByType_isSome.2 h2)
  obtain ⟨j, hj⟩ := Option.isSome_iff_exists.1 (indexByType_isSome.2 h1)
  by_cases hm : t ∈ args.map Sigma.fst
  · have h := indexByType_get hi hm
    rw [List.getElem?_map, Option.map_eq_some_iff] at h
    obtain ⟨⟨u, w⟩, ha, hu⟩ := h
    subst hu
    have hne : i ≠ args.length := by
      rintro rfl
      exact indexByType_length.1 (by rw [hi, List.length_map]) hm
    refine ⟨i, j, w, hi, hj, ?_, fun _ => List.mem_of_getElem? ha, fun h => absurd hm h⟩
    rw [getByIndex, if_neg hne]
    exact valueAt_some.2 ha
  · have hn : i = args.length := by
      have := indexByType_notMem hm
      rw [hi, List.length_map] at this
      exact Option.some.inj this
    refine ⟨i, j, dflt t, hi, hj, ?_, fun h => absurd h hm, fun _ => rfl⟩
    rw [getByIndex, if_pos hn]
    refine valueAt_some.2 ?_
    rw [List.getElem?_map, indexByType_get hj ht]
    rfl

theorem valid_iff {ts : List T} {args : List (Σ t, V t)} (h : ts.Nodup) :
    valid ts args = true ↔ ∀ a ∈ args, a.1 ∈ ts := by
  unfold valid
  rw [List.all_eq_true]
  refine forall₂_congr fun a _ => ?_
  obtain ⟨n, hn⟩ := Option.isSome_iff_exists.1
    (indexByType_isSome.2 (List.nodup_iff_count_le_one.1 h a.1))
  rw [hn]
  have := indexByType_length (t := a.1) (l := ts)
  rw [hn] at this
  constructor
  · intro h1
    by_contra h2
    simp [Option.some.inj (this.2 h2)] at h1
  · intro h1
    simp only [bne_iff_ne, ne_eq]
    rintro rfl
    exact this.1 rfl h1

theorem mapM_filled (dflt : ∀ t, V t) {ts : List T} {args : List (Σ t, V t)}
    (f : T → Option (Σ t, V t)) (l : List T)
    (hf : ∀ t ∈ l, ∃ v, f t = some ⟨t, v⟩ ∧
      (t ∈ args.map Sigma.fst → ⟨t, v⟩ ∈ args) ∧ (t ∉ args.map Sigma.fst → v = dflt t)) :
    ∃ r, l.mapM f = some r ∧ Filled dflt l args r := by
  induction l with
  | nil => exact ⟨[], by simp, rfl, by simp, by simp⟩
  | cons t l ih =>
    obtain ⟨v, h1, h2, h3⟩ := hf t (by simp)
    obtain ⟨r, hr, hF⟩ := ih fun u hu => hf u (by simp [hu])
    refine ⟨⟨t, v⟩ :: r, by simp [List.mapM_cons, h1, hr], by simp [hF.types], ?_, ?_⟩
    · intro a ha
      rcases List.mem_cons.1 ha with rfl | ha
      · exact h2
      · exact hF.given a ha
    · intro a ha
      rcases List.mem_cons.1 ha with rfl | ha
      · exact h3
      · exact hF.default a ha

/-- There is only one way to fill in the values. -/
theorem Filled.unique {dflt : ∀ t, V t} {ts : List T} {args args' l l' : List (Σ t, V t)}
    (hp : args.Perm args') (hn : (args.map Sigma.fst).Nodup) (h : Filled dflt ts args l)
    (h' : Filled dflt ts args' l') : l = l' := by
  have key : ∀ a ∈ l, ∀ b ∈ l', a.1 = b.1 → a = b := by
    rintro ⟨t, v⟩ ha ⟨u, w⟩ hb (rfl : t = u)
    by_cases hm : t ∈ args.map Sigma.fst
    · have h1 := h.given _ ha hm
      have h2 := hp.mem_iff.2 (h'.given _ hb ((hp.map Sigma.fst).mem_iff.1 hm))
      exact List.inj_on_of_nodup_map hn h1 h2 rfl
    · have h1 := h.default _ ha hm
      have h2 := h'.default _ hb fun hc => hm ((hp.map Sigma.fst).mem_iff.2 hc)
      simp only at h1 h2
      rw [h1, h2]
  have hl : l.length = l'.length := by
    rw [← List.length_map (f := Sigma.fst), h.types, ← h'.types, List.length_map]
  refine List.ext_getElem hl fun i h1 h2 => ?_
  refine key _ (List.getElem_mem _) _ (List.getElem_mem _) ?_
  have e1 : (l.map Sigma.fst)[i]'(by simpa using h1) = (l'.map Sigma.fst)[i]'(by simpa using h2) := by
    simp only [h.types, h'.types]
  simpa using e1

/-! ### Theorems -/

/-- With distinct types `ts`, a call is accepted exactly when its arguments have distinct types, all of
them among `ts`. -/
theorem C170_accepted (dflt : ∀ t, V t) (ts : List T) (args : List (Σ t, V t)) (h : ts.Nodup) :
    (unpermute dflt ts args).isSome = true ↔
      (args.map Sigma.fst).Nodup ∧ ∀ a ∈ args, a.1 ∈ ts := by
  constructor
  · intro hs
    by_cases hv : valid ts args = true
    · have hm := (valid_iff h).1 hv
      refine ⟨List.nodup_iff_count_le_one.2 fun t => ?_, hm⟩
      by_cases ht : t ∈ args.map Sigma.fst
      · obtain ⟨a, ha, rfl⟩ := List.mem_map.1 ht
        rw [← indexByType_isSome]
        rw [unpermute, if_pos hv] at hs
        have hall : ∀ (l : List T) (f : T → Option (Σ t, V t)), (l.mapM f).isSome = true →
            ∀ t ∈ l, (f t).isSome = true := by
          intro l f
          induction l with
          | nil => simp
          | cons u l ih =>
            intro hl t ht
            rw [List.mapM_cons] at hl
            cases hu : f u with
            | none => simp [hu] at hl
            | some w =>
              rcases List.mem_cons.1 ht with rfl | ht
              · simp [hu]
              · refine ih ?_ t ht
                cases hr : l.mapM f with
                | none => simp [hu, hr] at hl
                | some r => simp
        have := hall _ _ hs a.1 (hm a ha)
        cases hi : indexByType a.1 (args.map Sigma.fst) with
        | none => rw [hi] at this; cases this
        | some n => rfl
      · rw [List.count_eq_zero_of_not_mem ht]
        exact Nat.zero_le _
    · rw [unpermute, if_neg hv] at hs
      cases hs
  · rintro ⟨h1, h2⟩
    rw [unpermute, if_pos ((valid_iff h).2 h2)]
    obtain ⟨r, hr, -⟩ := mapM_filled (args := args) (ts := ts) dflt (fun t => do
      let i ← indexByType t (args.map Sigma.fst)
      let j ← indexByType t ts
      let v ← getByIndex t i j args (ts.map fun t => ⟨t, dflt t⟩)
      pure ⟨t, v⟩) ts (fun t ht => by
        obtain ⟨i, j, v, e1, e2, e3, e4, e5⟩ := get_some dflt ht
          (List.nodup_iff_count_le_one.1 h t) (List.nodup_iff_count_le_one.1 h1 t)
        exact ⟨v, by simp [e1, e2, e3], e4, e5⟩)
    rw [hr]
    rfl

/-- An accepted call gets its arguments where they belong, and defaults elsewhere. -/
theorem C170_filled (dflt : ∀ t, V t) (ts : List T) (args : List (Σ t, V t)) (h : ts.Nodup)
    (h1 : (args.map Sigma.fst).Nodup) (h2 : ∀ a ∈ args, a.1 ∈ ts) :
    ∃ r, unpermute dflt ts args = some r ∧ Filled dflt ts args r := by
  rw [unpermute, if_pos ((valid_iff h).2 h2)]
  refine mapM_filled (args := args) (ts := ts) dflt _ ts fun t ht => ?_
  obtain ⟨i, j, v, e1, e2, e3, e4, e5⟩ := get_some dflt ht
    (List.nodup_iff_count_le_one.1 h t) (List.nodup_iff_count_le_one.1 h1 t)
  exact ⟨v, by simp [e1, e2, e3], e4, e5⟩

/-- The order of the arguments does not matter: not for whether the call is accepted, and not for the
result. -/
theorem C170_order (dflt : ∀ t, V t) (ts : List T) (args args' : List (Σ t, V t)) (h : ts.Nodup)
    (hp : args.Perm args') : unpermute dflt ts args = unpermute dflt ts args' := by
  by_cases hc : (args.map Sigma.fst).Nodup ∧ ∀ a ∈ args, a.1 ∈ ts
  · have hn' : (args'.map Sigma.fst).Nodup := (hp.map Sigma.fst).nodup_iff.1 hc.1
    obtain ⟨r, e, hr⟩ := C170_filled dflt ts args h hc.1 hc.2
    obtain ⟨r', e', hr'⟩ := C170_filled dflt ts args' h hn' fun a ha => hc.2 a (hp.mem_iff.2 ha)
    rw [e, e', hr.unique hp hc.1 hr']
  · have hc' : ¬ ((args'.map Sigma.fst).Nodup ∧ ∀ a ∈ args', a.1 ∈ ts) := fun h' =>
      hc ⟨(hp.map Sigma.fst).nodup_iff.2 h'.1, fun a ha => h'.2 a (hp.mem_iff.1 ha)⟩
    rw [← C170_accepted dflt ts args h] at hc
    rw [← C170_accepted dflt ts args' h] at hc'
    rw [Bool.not_eq_true, Option.isSome_eq_false_iff, Option.isNone_iff_eq_none] at hc hc'
    rw [hc, hc']

/-! ### Instances -/

/-- Two of three settings, given in reverse order. -/
example : unpermute (V := fun _ => ℕ) (fun _ => 7) ["Security", "Endgame", "Cauchy"]
    [⟨"Cauchy", 3⟩, ⟨"Security", 1⟩] = some [⟨"Security", 1⟩, ⟨"Endgame", 7⟩, ⟨"Cauchy", 3⟩] := by
  rw [C170_order _ _ _ [⟨"Security", 1⟩, ⟨"Cauchy", 3⟩] (by decide) (List.Perm.swap _ _ _)]
  obtain ⟨r, e, hr⟩ := C170_filled (V := fun _ => ℕ) (fun _ => 7) ["Security", "Endgame", "Cauchy"]
    [⟨"Security", 1⟩, ⟨"Cauchy", 3⟩] (by decide) (by decide) (by decide)
  rw [e]
  refine congrArg some (hr.unique (List.Perm.refl _) (by decide) ⟨by decide, ?_, ?_⟩) <;> decide

/-- A setting given twice is rejected. -/
example : ¬ (unpermute (V := fun _ => ℕ) (fun _ => 7) ["Security", "Endgame"]
    [⟨"Security", 1⟩, ⟨"Security", 2⟩]).isSome = true := by
  rw [C170_accepted _ _ _ (by decide)]
  decide

end B2.Infra.Permute
