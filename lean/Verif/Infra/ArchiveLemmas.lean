/-
Reading what was written.
-/
import Verif.Infra.ArchiveSpec
import Mathlib.Tactic.Common

namespace B2.Infra.Arch

/-- Run a reading program on a list of fields. -/
def feed {α : Type} : Rd α → List Fld → Option (α × List Fld)
  | .done a, fs => some (a, fs)
  | .fail, _ => none
  | .tok k, .tok t :: fs => feed (k t) fs
  | .tok _, _ => none
  | .ptr k, .ptr p :: fs => feed (k p) fs
  | .ptr _, _ => none

theorem feed_bind {α β : Type} (r : Rd α) (f : α → Rd β) (fs : List Fld) :
    feed (r.bind f) fs = (feed r fs).bind fun x => feed (f x.1) x.2 := by
  induction r generalizing fs with
  | done a => simp [Rd.bind, feed]
  | fail => simp [Rd.bind, feed]
  | tok k ih =>
    rcases fs with _ | ⟨_ | _, fs⟩
    · simp [Rd.bind, feed]
    · simp only [Rd.bind, feed]; exact ih _ _
    · simp [Rd.bind, feed]
  | ptr k ih =>
    rcases fs with _ | ⟨_ | _, fs⟩
    · simp [Rd.bind, feed]
    · simp [Rd.bind, feed]
    · simp only [Rd.bind, feed]; exact ih _ _

/-- The reader reads what the writer writes. -/
def Codec {α : Type} (w : α → List Fld) (r : Rd α) : Prop := ∀ a rest, feed r (w a ++ rest) = some (a, rest)

theorem cNat : Codec wNat rNat := fun _ _ => rfl
theorem cInt : Codec wInt rInt := fun _ _ => rfl
theorem cBool : Codec wBool rBool := fun _ _ => rfl
theorem cStr : Codec wStr rStr := fun _ _ => rfl
theorem cNum : Codec wNum rNum := fun _ _ => rfl
theorem cRat : Codec wRat rRat := fun _ _ => rfl
theorem cPtr : Codec wPtr rPtr := fun _ _ => rfl

theorem cMany {α : Type} {w : α → List Fld} {r : Rd α} (h : Codec w r) (l : List α) (rest : List Fld) :
    feed (rMany r l.length) (l.flatMap w ++ rest) = some (l, rest) := by
  induction l with
  | nil => rfl
  | cons a l ih =>
    simp only [List.length_cons, rMany, List.flatMap_cons, List.append_assoc, feed_bind, h a, Option.bind_some, ih, feed]

theorem cList {α : Type} {w : α → List Fld} {r : Rd α} (h : Codec w r) : Codec (wList w) (rList r) := by
  intro l rest
  have := cMany h l rest
  simp only [rList, wList, feed_bind]
  show (some (l.length, l.flatMap w ++ rest)).bind _ = _
  exact this

theorem cPair : Codec wPair rPair := by
  intro a rest
  simp only [wPair, rPair, List.append_assoc, feed_bind, cPtr _ _, cNat _ _, Option.bind_some, feed]

theorem cPatch : Codec wPatch rPatch := by
  intro a rest
  simp only [wPatch, rPatch, List.append_assoc, feed_bind, cNat _ _, cList (cList cNum) _ _, cList cNat _ _,
    Option.bind_some, feed]

theorem Codec.step {α β : Type} {w : α → List Fld} {r : Rd α} (h : Codec w r) (f : α → Rd β) (a : α) (rest : List Fld) :
    feed (r.bind f) (w a ++ rest) = feed (f a) rest := by
  rw [feed_bind, h a rest]; rfl

theorem cSlp : Codec wSlp rSlp := by
  intro a rest
  simp only [wSlp, List.append_assoc]
  unfold rSlp
  rw [cNat.step, cBool.step, cNat.step, cNat.step, cNat.step, cNat.step, cNat.step, cNat.step, cNat.step, cNat.step, cNat.step,
    (cList cNum).step, (cList cNum).step, (cList cInt).step, (cList cNat).step, (cList cPair).step, cBool.step]
  rfl

theorem cSys : Codec wSys rSys := by
  intro a rest
  simp only [wSys, List.append_assoc]
  unfold rSys
  rw [(cList cPtr).step, (cList (cList cPtr)).step, (cList (cList cPtr)).step, (cList cPtr).step, cBool.step, cPtr.step,
    (cList cPtr).step, (cList cPtr).step, (cList cPtr).step, (cList cPtr).step, (cList cPtr).step, cPatch.step, cBool.step,
    cBool.step, cNat.step, cNat.step, cBool.step, cNat.step, cBool.step, (cList cPtr).step, (cList cPtr).step,
    (cList cPtr).step, cSlp.step, (cList cNat).step, cBool.step, (cList cPtr).step]
  rfl

/-- What is left of an object. -/
def kept : Obj → Obj
  | .diff s _ => .diff s none
  | .lin _ _ _ => .lin [] none []
  | o => o

theorem cObj (o : Obj) (rest : List Fld) : feed (reader (cls o)) (fields o ++ rest) = some (kept o, rest) := by
  cases o <;>
    (try (rename_i b _; cases b)) <;>
    simp only [cls, reader, fields, kept, List.append_assoc, feed_bind, cNat _ _, cInt _ _, cBool _ _, cStr _ _, cNum _ _,
      cRat _ _, cPtr _ _, cList cPtr _ _, cList cBool _ _, Option.bind_some, feed, List.nil_append]

/-! ### Renaming -/

/-- Renaming in a field. -/
def Fld.map (φ : Addr → Addr) : Fld → Fld
  | .ptr p => .ptr (p.map φ)
  | f => f

theorem cls_map (φ : Addr → Addr) (o : Obj) : cls (o.map φ) = cls o := by
  cases o <;> first | rfl | (rename_i b _; cases b <;> rfl)

theorem kept_map (φ : Addr → Addr) (o : Obj) : kept (o.map φ) = (kept o).map φ := by
  cases o <;> rfl

theorem wList_map {α : Type} (φ : Addr → Addr) {w : α → List Fld} {f : α → α}
    (h : ∀ a, (w a).map (Fld.map φ) = w (f a)) (l : List α) :
    (wList w l).map (Fld.map φ) = wList w (l.map f) := by
  unfold wList
  simp only [List.map_cons, List.length_map, Fld.map, List.cons.injEq, true_and]
  induction l with
  | nil => rfl
  | cons a l ih => simp [h, ih]

theorem wList_map_id {α : Type} (φ : Addr → Addr) {w : α → List Fld}
    (h : ∀ a, (w a).map (Fld.map φ) = w a) (l : List α) : (wList w l).map (Fld.map φ) = wList w l := by
  have := wList_map φ (f := id) h l
  simpa using this

theorem wPtr_map (φ : Addr → Addr) (p : Ptr) : (wPtr p).map (Fld.map φ) = wPtr (p.map φ) := rfl
theorem wNat_map (φ : Addr → Addr) (x : ℕ) : (wNat x).map (Fld.map φ) = wNat x := rfl
theorem wInt_map (φ : Addr → Addr) (x : ℤ) : (wInt x).map (Fld.map φ) = wInt x := rfl
theorem wBool_map (φ : Addr → Addr) (x : Bool) : (wBool x).map (Fld.map φ) = wBool x := rfl
theorem wNum_map (φ : Addr → Addr) (x : Num) : (wNum x).map (Fld.map φ) = wNum x := rfl
theorem wRat_map (φ : Addr → Addr) (x : ℚ) : (wRat x).map (Fld.map φ) = wRat x := rfl
theorem wStr_map (φ : Addr → Addr) (x : String) : (wStr x).map (Fld.map φ) = wStr x := rfl

theorem wPair_map (φ : Addr → Addr) (x : Ptr × ℕ) :
    (wPair x).map (Fld.map φ) = wPair ((fun x => (x.1.map φ, x.2)) x) := rfl

theorem fields_map (φ : Addr → Addr) (o : Obj) : (fields o).map (Fld.map φ) = fields (o.map φ) := by
  cases o <;>
    simp only [fields, Obj.map, List.map_append, wPtr_map, wNat_map, wInt_map, wBool_map, wNum_map, wRat_map, wStr_map,
      wList_map φ (wPtr_map φ), wList_map_id φ (wBool_map φ), List.map_nil]

theorem wSys_map (φ : Addr → Addr) (s : Sys) : (wSys s).map (Fld.map φ) = wSys (s.map φ) := by
  simp only [wSys, Sys.map, wPatch, wSlp, List.map_append, wPtr_map, wNat_map, wBool_map,
    wList_map φ (wPtr_map φ), wList_map φ (wList_map φ (wPtr_map φ)), wList_map φ (wPair_map φ),
    wList_map_id φ (wNat_map φ), wList_map_id φ (wNum_map φ), wList_map_id φ (wInt_map φ),
    wList_map_id φ (wList_map_id φ (wNum_map φ))]

/-! ### Tracking -/

/-- Renamings agreeing on the pointers present give the same fields. -/
theorem map_congr_fld {φ ψ : Addr → Addr} (fs : List Fld) (h : ∀ a, Fld.ptr (some a) ∈ fs → φ a = ψ a) :
    fs.map (Fld.map φ) = fs.map (Fld.map ψ) := by
  apply List.map_congr_left
  intro f hf
  rcases f with t | _ | a
  · rfl
  · rfl
  · simp [Fld.map, h a hf]

/-- The position of an object does not change when more objects are written. -/
theorem idxOf_prefix {l l' : List Addr} (h : l <+: l') {a : Addr} (ha : a ∈ l) : l'.idxOf a = l.idxOf a := by
  obtain ⟨t, rfl⟩ := h
  exact List.idxOf_append_of_mem ha

/-- What is known after a pointer was written. -/
structure PtrOk (H : Addr → Obj) (n : ℕ) (p : Ptr) (seen : List Addr) (ts : List Tok) (seen' : List Addr) : Prop where
  pre : seen <+: seen'
  nodup : seen.Nodup → seen'.Nodup
  mem : ∀ a, p = some a → a ∈ seen'
  kids : ∀ a, a ∈ seen' → a ∉ seen → ∀ b, Fld.ptr (some b) ∈ fields (H a) → b ∈ seen'
  load : seen.Nodup → ∀ (rest : List Tok) (st : List Obj), st.length = seen.length → ∃ st',
    loadPtr n (ts ++ rest) st = some (p.map seen'.idxOf, rest, st') ∧ st'.length = seen'.length ∧
    (∀ i, i < seen.length → st'[i]? = st[i]?) ∧
    ∀ a, a ∈ seen' → a ∉ seen → st'[seen'.idxOf a]? = some ((kept (H a)).map seen'.idxOf)

/-- What is known after fields were written. -/
structure FldOk (H : Addr → Obj) (n : ℕ) (fs : List Fld) (seen : List Addr) (ts : List Tok) (seen' : List Addr) : Prop where
  pre : seen <+: seen'
  nodup : seen.Nodup → seen'.Nodup
  mem : ∀ a, Fld.ptr (some a) ∈ fs → a ∈ seen'
  kids : ∀ a, a ∈ seen' → a ∉ seen → ∀ b, Fld.ptr (some b) ∈ fields (H a) → b ∈ seen'
  load : seen.Nodup → ∀ {α : Type} (r : Rd α) (x : α) (rest : List Tok) (st : List Obj), st.length = seen.length →
    feed r (fs.map (Fld.map seen'.idxOf)) = some (x, []) → ∃ st',
    runRd (loadPtr n) r (ts ++ rest) st = some (x, rest, st') ∧ st'.length = seen'.length ∧
    (∀ i, i < seen.length → st'[i]? = st[i]?) ∧
    ∀ a, a ∈ seen' → a ∉ seen → st'[seen'.idxOf a]? = some ((kept (H a)).map seen'.idxOf)

/-- A reading program stops without reading only if it is finished. -/
theorem feed_nil {α : Type} {r : Rd α} {x : α} {fs : List Fld} (h : feed r [] = some (x, fs)) : r = .done x := by
  cases r with
  | done a => simp [feed] at h; rw [h.1]
  | fail => simp [feed] at h
  | tok k => simp [feed] at h
  | ptr k => simp [feed] at h

theorem feed_tok {α : Type} {r : Rd α} {x : α} {t : Tok} {fs : List Fld}
    (h : feed r (.tok t :: fs) = some (x, [])) : ∃ k, r = .tok k ∧ feed (k t) fs = some (x, []) := by
  cases r with
  | done a => simp [feed] at h
  | fail => simp [feed] at h
  | tok k => exact ⟨k, rfl, h⟩
  | ptr k => simp [feed] at h

theorem feed_ptr {α : Type} {r : Rd α} {x : α} {p : Ptr} {fs : List Fld}
    (h : feed r (.ptr p :: fs) = some (x, [])) : ∃ k, r = .ptr k ∧ feed (k p) fs = some (x, []) := by
  cases r with
  | done a => simp [feed] at h
  | fail => simp [feed] at h
  | tok k => simp [feed] at h
  | ptr k => exact ⟨k, rfl, h⟩

theorem mem_fields_kids {o : Obj} {a : Addr} (h : Fld.ptr (some a) ∈ fields (kept o)) : some a ∈ (kept o).kids := by
  cases o <;> simp_all [fields, kept, wList, wStr, wInt, wNat, wNum, wRat, wPtr, wBool, Obj.kids]

theorem kids_fields {o : Obj} {a : Addr} (h : some a ∈ (kept o).kids) : Fld.ptr (some a) ∈ fields o := by
  cases o <;> simp_all [fields, kept, wList, wStr, wInt, wNat, wNum, wRat, wPtr, wBool, Obj.kids]

theorem map_congr_obj {φ ψ : Addr → Addr} (o : Obj) (h : ∀ a, some a ∈ o.kids → φ a = ψ a) : o.map φ = o.map ψ := by
  have hp : ∀ p : Ptr, p ∈ o.kids → p.map φ = p.map ψ := by
    intro p hp
    cases p with
    | none => rfl
    | some a => simp [h a hp]
  have hl : ∀ l : List Ptr, (∀ p ∈ l, p ∈ o.kids) → l.map (Option.map φ) = l.map (Option.map ψ) :=
    fun l hl => List.map_congr_left fun p hm => hp p (hl p hm)
  cases o with
  | sum ops s => simp only [Obj.map]; rw [hl ops (fun p hm => hm)]
  | mult ops s => simp only [Obj.map]; rw [hl ops (fun p hm => hm)]
  | pow a b => simp only [Obj.map]; rw [hp a (by simp [Obj.kids]), hp b (by simp [Obj.kids])]
  | lin vs w rows =>
    simp only [Obj.map]
    rw [hl vs (fun p hm => by simp [Obj.kids, hm]), hp w (by simp [Obj.kids])]
  | _ => simp only [Obj.map] <;> rw [hp _ (by simp [Obj.kids])]

theorem fldOk (H : Addr → Obj) (n : ℕ)
    (ih : ∀ p seen ts seen', savePtr H n p seen = some (ts, seen') → PtrOk H n p seen ts seen') :
    ∀ fs seen ts seen', saveFlds (savePtr H n) fs seen = some (ts, seen') → FldOk H n fs seen ts seen' := by
  intro fs
  induction fs with
  | nil =>
    intro seen ts seen' h
    simp only [saveFlds, Option.some.injEq, Prod.mk.injEq] at h
    obtain ⟨rfl, rfl⟩ := h
    refine ⟨List.prefix_rfl, id, by simp, fun a h1 h2 => absurd h1 h2, ?_⟩
    intro _ α r x rest st hl hf
    obtain rfl := feed_nil hf
    exact ⟨st, rfl, hl, fun _ _ => rfl, fun a h1 h2 => absurd h1 h2⟩
  | cons f fs ihf =>
    intro seen ts seen' h
    cases f with
    | tok t =>
      simp only [saveFlds, Option.map_eq_some_iff, Prod.mk.injEq] at h
      obtain ⟨⟨ts1, s1⟩, h1, rfl, rfl⟩ := h
      have F := ihf _ _ _ h1
      refine ⟨F.pre, F.nodup, fun a ha => F.mem a (by simpa using ha), F.kids, ?_⟩
      intro hnd α r x rest st hl hf
      obtain ⟨k, rfl, hk⟩ := feed_tok hf
      obtain ⟨st', e1, e2⟩ := F.load hnd (k t) x rest st hl hk
      exact ⟨st', e1, e2⟩
    | ptr p =>
      simp only [saveFlds] at h
      cases hp : savePtr H n p seen with
      | none => rw [hp] at h; exact absurd h (by simp)
      | some w =>
        obtain ⟨ts0, s0⟩ := w
        rw [hp] at h
        simp only [Option.map_eq_some_iff, Prod.mk.injEq] at h
        obtain ⟨⟨ts1, s1⟩, h1, rfl, rfl⟩ := h
        have P := ih _ _ _ _ hp
        have F := ihf _ _ _ h1
        refine ⟨P.pre.trans F.pre, fun h => F.nodup (P.nodup h), ?_, ?_, ?_⟩
        · intro a ha
          simp only [List.mem_cons, Fld.ptr.injEq] at ha
          rcases ha with ha | ha
          · exact F.pre.subset (P.mem a ha.symm)
          · exact F.mem a ha
        · intro a h1 h2 b hb
          by_cases h3 : a ∈ s0
          · exact F.pre.subset (P.kids a h3 h2 b hb)
          · exact F.kids a h1 h3 b hb
        · intro hnd α r x rest st hl hf
          obtain ⟨k, rfl, hk⟩ := feed_ptr (p := p.map s1.idxOf) hf
          have hpe : p.map s1.idxOf = p.map s0.idxOf := by
            cases p with
            | none => rfl
            | some a => simp [idxOf_prefix F.pre (P.mem a rfl)]
          obtain ⟨st0, e1, e2, e3, e4⟩ := P.load hnd (ts1 ++ rest) st hl
          obtain ⟨st1, g1, g2, g3, g4⟩ := F.load (P.nodup hnd) (k (p.map s1.idxOf)) x rest st0 e2 hk
          refine ⟨st1, ?_, g2, ?_, ?_⟩
          · simp only [runRd, List.append_assoc, e1]
            rw [← hpe]; exact g1
          · intro i hi
            rw [g3 i (lt_of_lt_of_le hi P.pre.length_le), e3 i hi]
          · intro a h1 h2
            by_cases h3 : a ∈ s0
            · have := e4 a h3 h2
              rw [idxOf_prefix F.pre h3, g3 _ (List.idxOf_lt_length_of_mem h3), this]
              congr 1
              apply map_congr_obj
              intro b hb
              exact (idxOf_prefix F.pre (P.kids a h3 h2 b (kids_fields hb))).symm
            · exact g4 a h1 h3

theorem ptrOk (H : Addr → Obj) (n : ℕ) :
    ∀ p seen ts seen', savePtr H n p seen = some (ts, seen') → PtrOk H n p seen ts seen' := by
  induction n with
  | zero => intro p seen ts seen' h; simp [savePtr] at h
  | succ n ih =>
    intro p seen ts seen' h
    cases p with
    | none =>
      simp only [savePtr, Option.some.injEq, Prod.mk.injEq] at h
      obtain ⟨rfl, rfl⟩ := h
      refine ⟨List.prefix_rfl, id, by simp, fun a h1 h2 => absurd h1 h2, ?_⟩
      intro _ rest st hl
      exact ⟨st, rfl, hl, fun _ _ => rfl, fun a h1 h2 => absurd h1 h2⟩
    | some a =>
      rw [savePtr] at h
      by_cases ha : a ∈ seen
      · rw [if_pos ha] at h
        simp only [Option.some.injEq, Prod.mk.injEq] at h
        obtain ⟨rfl, rfl⟩ := h
        refine ⟨List.prefix_rfl, id, ?_, fun a h1 h2 => absurd h1 h2, ?_⟩
        · rintro b ⟨⟩; exact ha
        intro _ rest st hl
        refine ⟨st, ?_, hl, fun _ _ => rfl, fun a h1 h2 => absurd h1 h2⟩
        have : seen.idxOf a < st.length := by rw [hl]; exact List.idxOf_lt_length_of_mem ha
        simp [loadPtr, this]
      · rw [if_neg ha] at h
        simp only [Option.map_eq_some_iff, Prod.mk.injEq] at h
        obtain ⟨⟨ts1, s1⟩, h1, rfl, rfl⟩ := h
        have F := fldOk H n ih _ _ _ _ h1
        have hpre : seen <+: s1 := (List.prefix_append seen [a]).trans F.pre
        have has1 : a ∈ s1 := F.pre.subset (by simp)
        have hix : s1.idxOf a = seen.length := by
          rw [idxOf_prefix F.pre (by simp), List.idxOf_append_of_notMem ha]; simp
        have hnd1 : seen.Nodup → (seen ++ [a]).Nodup := by
          intro h
          rw [List.nodup_append]
          refine ⟨h, by simp, ?_⟩
          intro x hx y hy
          simp only [List.mem_singleton] at hy
          rintro rfl
          exact ha (hy ▸ hx)
        refine ⟨hpre, fun h => F.nodup (hnd1 h), ?_, ?_, ?_⟩
        · rintro b ⟨⟩; exact has1
        · intro b h1 h2 c hc
          by_cases hb : b = a
          · subst hb; exact F.mem c hc
          · exact F.kids b h1 (by simp [h2, hb]) c hc
        · intro hnd rest st hl
          have hfeed : feed (reader (cls (H a))) ((fields (H a)).map (Fld.map s1.idxOf)) =
              some ((kept (H a)).map s1.idxOf, []) := by
            have := cObj ((H a).map s1.idxOf) []
            rw [List.append_nil, cls_map, ← fields_map, kept_map] at this
            exact this
          obtain ⟨st', e1, e2, e3, e4⟩ := F.load (hnd1 hnd) (reader (cls (H a))) _ rest (st ++ [.var ""])
            (by simp [hl]) hfeed
          refine ⟨st'.set st.length ((kept (H a)).map s1.idxOf), ?_, ?_, ?_, ?_⟩
          · simp only [List.cons_append, loadPtr, e1, Option.map_some, hix, hl]
          · simp [e2]
          · intro i hi
            rw [List.getElem?_set_ne (by omega), e3 i (by simp; omega), List.getElem?_append_left (by omega)]
          · intro b h1 h2
            by_cases hb : b = a
            · subst hb
              rw [hix, ← hl, List.getElem?_set_self]
              rw [e2, hl]
              have := List.idxOf_lt_length_of_mem has1
              omega
            · have hne : st.length ≠ s1.idxOf b := by
                rw [hl, ← hix]
                intro h
                exact hb ((List.idxOf_inj h1).1 h.symm)
              rw [List.getElem?_set_ne hne]
              exact e4 b h1 (by simp [h2, hb])

end B2.Infra.Arch
