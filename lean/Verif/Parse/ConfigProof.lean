import Verif.Parse.ConfigValues

/-!
# The parsers of configuration structs on files made of statements
-/

namespace B2.Parse.Config

open B2.Parse

/-! ### Names -/

/-- Characters that are not white space. -/
def nonspace (s : List Char) : List Char := s.filter fun c => !isSpace c

/-- Names of settings: no white space, colon or semicolon, not empty. -/
def NameOk (nm : List Char) : Prop := nm ≠ [] ∧ ∀ c ∈ nm, isSpace c = false ∧ c ≠ ':' ∧ c ≠ ';'

theorem lowerC_cases (c : Char) : lowerC c = c ∨ ('A' ≤ c ∧ c ≤ 'Z') := by
  unfold lowerC
  split_ifs with h
  · exact Or.inr h
  · exact Or.inl rfl

theorem space_of_lower {c : Char} (h : isSpace (lowerC c) = false ∧ lowerC c ≠ ':' ∧ lowerC c ≠ ';') :
    isSpace c = false ∧ c ≠ ':' ∧ c ≠ ';' := by
  rcases lowerC_cases c with e | ⟨h1, h2⟩
  · rwa [e] at h
  · have e1 : 65 ≤ c.toNat := h1
    have e2 : c.toNat ≤ 90 := h2
    have key : ∀ d : Char, d.toNat < 65 → c ≠ d := by
      rintro d hd rfl
      omega
    refine ⟨?_, key _ (by decide), key _ (by decide)⟩
    unfold isSpace
    simp only [Bool.or_eq_false_iff, decide_eq_false_iff_not]
    exact ⟨⟨⟨⟨⟨key _ (by decide), key _ (by decide)⟩, key _ (by decide)⟩, key _ (by decide)⟩, key _ (by decide)⟩,
      key _ (by decide)⟩

theorem chars_of_lower {a nm : List Char} (h : lower a = nm) (hn : NameOk nm) :
    a ≠ [] ∧ ∀ c ∈ a, isSpace c = false ∧ c ≠ ':' ∧ c ≠ ';' := by
  subst h
  refine ⟨fun e => hn.1 (by rw [e]; rfl), fun c hc => space_of_lower (hn.2 _ ?_)⟩
  exact List.mem_map_of_mem hc

theorem eatNoCase_some {nm s r : List Char} : eatNoCase nm s = some r ↔ ∃ a, s = a ++ r ∧ lower a = nm := by
  induction nm generalizing s with
  | nil =>
    simp only [eatNoCase, Option.some.injEq]
    constructor
    · rintro rfl; exact ⟨[], rfl, rfl⟩
    · rintro ⟨a, e, h⟩
      cases a with
      | nil => exact e
      | cons c a => cases h
  | cons k nm ih =>
    cases s with
    | nil =>
      simp only [eatNoCase]
      constructor
      · intro h; cases h
      · rintro ⟨a, e, h⟩
        cases a with
        | nil => cases h
        | cons c a => cases e
    | cons d s =>
      simp only [eatNoCase]
      constructor
      · intro h
        split_ifs at h with hd
        obtain ⟨a, e, h⟩ := ih.1 h
        exact ⟨d :: a, by rw [e]; rfl, by rw [← h, ← hd]; rfl⟩
      · rintro ⟨a, e, h⟩
        cases a with
        | nil => cases h
        | cons c a =>
          simp only [List.cons_append, List.cons.injEq] at e
          have h' : lowerC c :: lower a = k :: nm := h
          simp only [List.cons.injEq] at h'
          rw [e.1, if_pos h'.1]
          exact ih.2 ⟨a, e.2, h'.2⟩

theorem eat_some {c : Char} {s r : List Char} (h : eat c s = some r) : ∃ q, Ws q ∧ s = q ++ c :: r := by
  obtain ⟨p, hp, e⟩ := skip_eq s
  unfold eat at h
  split at h
  · cases h
  · rename_i d r' he
    split_ifs at h with hd
    simp only [Option.some.injEq] at h
    subst hd h
    exact ⟨p, hp, by rw [he] at e; exact e⟩

theorem nameColon_some {nm s r : List Char} (h : nameColon nm s = some r) :
    ∃ p a q, Ws p ∧ Ws q ∧ lower a = nm ∧ s = p ++ (a ++ (q ++ ':' :: r)) := by
  obtain ⟨p, hp, e⟩ := skip_eq s
  unfold nameColon at h
  split at h
  · rename_i r' he
    obtain ⟨a, e1, h1⟩ := eatNoCase_some.1 he
    obtain ⟨q, hq, e2⟩ := eat_some h
    exact ⟨p, a, q, hp, hq, h1, by rw [← e2, ← e1]; exact e⟩
  · cases h

theorem skip_nonspace {p i t : List Char} (hp : Ws p) (hi : i ≠ []) (hc : ∀ c ∈ i, isSpace c = false) :
    skip (p ++ (i ++ t)) = i ++ t := by
  rw [skip_ws p _ hp]
  cases i with
  | nil => exact absurd rfl hi
  | cons c i => exact skip_cons c _ (hc c (by simp))

theorem nameColon_of {nm p a q r : List Char} (hn : NameOk nm) (hp : Ws p) (hq : Ws q) (ha : lower a = nm) :
    nameColon nm (p ++ (a ++ (q ++ ':' :: r))) = some r := by
  obtain ⟨h1, h2⟩ := chars_of_lower ha hn
  unfold nameColon
  rw [skip_nonspace hp h1 fun c hc => (h2 c hc).1, eatNoCase_some.2 ⟨a, rfl, ha⟩]
  exact eat_ws ':' q r hq (by decide)

theorem split_char {d : Char} {x y a b : List Char} (h : x ++ d :: a = y ++ d :: b) (hx : d ∉ x) (hy : d ∉ y) :
    x = y ∧ a = b := by
  induction x generalizing y with
  | nil =>
    cases y with
    | nil =>
      simp only [List.nil_append, List.cons.injEq, true_and] at h
      exact ⟨rfl, h⟩
    | cons c y =>
      simp only [List.nil_append, List.cons_append, List.cons.injEq] at h
      exact absurd (by rw [h.1]; simp) hy
  | cons c x ih =>
    cases y with
    | nil =>
      simp only [List.nil_append, List.cons_append, List.cons.injEq] at h
      exact absurd (by rw [h.1]; simp) hx
    | cons c' y =>
      simp only [List.cons_append, List.cons.injEq] at h
      obtain ⟨e1, e2⟩ := ih h.2 (fun hm => hx (by simp [hm])) (fun hm => hy (by simp [hm]))
      exact ⟨by rw [h.1, e1], e2⟩

theorem core_eq {p i m : List Char} (hp : Ws p) (hm : Ws m) (hi : ∀ c ∈ i, isSpace c = false) :
    nonspace (p ++ (i ++ m)) = i := by
  unfold nonspace
  rw [List.filter_append, List.filter_append]
  have h1 : ∀ l : List Char, Ws l → l.filter (fun c => !isSpace c) = [] := by
    intro l hl
    rw [List.filter_eq_nil_iff]
    intro c hc
    rw [hl c hc]; decide
  have h2 : i.filter (fun c => !isSpace c) = i := by
    rw [List.filter_eq_self]
    intro c hc
    rw [hi c hc]; rfl
  rw [h1 p hp, h1 m hm, h2]
  simp

theorem nameColon_ident {nm p i m w : List Char} (hn : NameOk nm) (hp : Ws p) (hm : Ws m)
    (hi : ∀ c ∈ i, isSpace c = false ∧ c ≠ ':' ∧ c ≠ ';') :
    nameColon nm (p ++ (i ++ (m ++ ':' :: w))) = if lower i = nm then some w else none := by
  split_ifs with h
  · exact nameColon_of hn hp hm h
  · cases hh : nameColon nm (p ++ (i ++ (m ++ ':' :: w))) with
    | none => rfl
    | some r =>
      exfalso
      obtain ⟨p', a, q', hp', hq', ha, e⟩ := nameColon_some hh
      have hac := (chars_of_lower ha hn).2
      have nows : ∀ l : List Char, Ws l → ':' ∉ l := fun l hl hm => absurd (hl _ hm) (by decide)
      have e' : (p ++ (i ++ m)) ++ ':' :: w = (p' ++ (a ++ q')) ++ ':' :: r := by simpa using e
      obtain ⟨e1, -⟩ := split_char e' (by
        simp only [List.mem_append, not_or]
        exact ⟨nows p hp, fun hc => (hi _ hc).2.1 rfl, nows m hm⟩) (by
        simp only [List.mem_append, not_or]
        exact ⟨nows p' hp', fun hc => (hac _ hc).2.1 rfl, nows q' hq'⟩)
      have := core_eq hp hm fun c hc => (hi c hc).1
      rw [e1, core_eq hp' hq' fun c hc => (hac c hc).1] at this
      exact h (by rw [← this]; exact ha)

theorem nameColon_val {nm v w : List Char} (hn : NameOk nm) (hv : ∀ c ∈ v, c ≠ ':' ∧ c ≠ ';') :
    nameColon nm (v ++ ';' :: w) = none := by
  cases hh : nameColon nm (v ++ ';' :: w) with
  | none => rfl
  | some r =>
    exfalso
    obtain ⟨p, a, q, hp, hq, ha, e⟩ := nameColon_some hh
    have hac := (chars_of_lower ha hn).2
    obtain ⟨q', e1, e2⟩ := split_semi (c := p ++ (a ++ q)) (r := ':' :: r) (by simpa using e) (by
      simp only [List.mem_append, not_or]
      exact ⟨ws_semi hp, fun hc => (hac _ hc).2.2 rfl, ws_semi hq⟩)
    cases q' with
    | nil =>
      simp only [List.nil_append, List.cons.injEq] at e2
      exact absurd e2.1 (by decide)
    | cons d q' =>
      simp only [List.cons_append, List.cons.injEq] at e2
      exact (hv ':' (by rw [e1, ← e2.1]; simp)).1 rfl

theorem nameColon_ws {nm w : List Char} (hn : NameOk nm) (hw : Ws w) : nameColon nm w = none := by
  cases hh : nameColon nm w with
  | none => rfl
  | some r =>
    obtain ⟨p, a, q, hp, hq, ha, e⟩ := nameColon_some hh
    exact absurd (hw ':' (by rw [e]; simp)) (by decide)

/-! ### Scanning -/

theorem atName_true {N : List (List Char)} {s : List Char} : atName N s = true ↔ ∃ nm ∈ N, (nameColon nm s).isSome := by
  unfold atName
  rw [List.any_eq_true]

theorem atName_false {N : List (List Char)} {s : List Char} :
    atName N s = false ↔ ∀ nm ∈ N, nameColon nm s = none := by
  unfold atName
  rw [List.any_eq_false]
  constructor
  · intro h nm hm
    have := h nm hm
    cases hh : nameColon nm s with
    | none => rfl
    | some r => rw [hh] at this; exact absurd rfl this
  · intro h nm hm
    rw [h nm hm]
    decide

theorem scan_stop {stop : List Char → Bool} {s : List Char} (h : stop s = true) : scan stop s = ([], s) := by
  rw [scan, if_pos h]

theorem scan_go {stop : List Char → Bool} {s r : List Char} {c : Char} (h : stop s = false) (hs : skip s = c :: r) :
    scan stop s = (c :: (scan stop r).1, (scan stop r).2) := by
  rw [scan, if_neg (by rw [h]; decide)]
  split
  · rename_i he
    rw [hs] at he; cases he
  · rename_i c' r' he
    rw [hs] at he
    injection he with h1 h2
    subst h1 h2
    rfl

theorem scan_nil {stop : List Char → Bool} {s : List Char} (h : stop s = false) (hs : skip s = []) :
    scan stop s = ([], []) := by
  rw [scan, if_neg (by rw [h]; decide)]
  split
  · rfl
  · rename_i c' r' he
    rw [hs] at he; cases he

theorem skip_suffix (s : List Char) : skip s <:+ s := by
  obtain ⟨p, -, e⟩ := skip_eq s
  exact ⟨p, e.symm⟩

theorem scan_congr {stop stop' : List Char → Bool} (n : ℕ) : ∀ {s : List Char}, s.length ≤ n →
    (∀ y, y <:+ s → stop y = stop' y) → scan stop s = scan stop' s := by
  induction n with
  | zero =>
    intro s hs h
    have : s = [] := List.eq_nil_of_length_eq_zero (by omega)
    subst this
    have h0 := h [] (List.suffix_refl _)
    cases hb : stop [] with
    | true => rw [scan_stop hb, scan_stop (by rw [← h0, hb])]
    | false => rw [scan_nil hb rfl, scan_nil (by rw [← h0, hb]) rfl]
  | succ n ih =>
    intro s hs h
    have h0 := h s (List.suffix_refl _)
    cases hb : stop s with
    | true => rw [scan_stop hb, scan_stop (by rw [← h0, hb])]
    | false =>
      cases hk : skip s with
      | nil => rw [scan_nil hb hk, scan_nil (by rw [← h0, hb]) hk]
      | cons c r =>
        have hr : r <:+ s := (List.suffix_cons c r).trans (by rw [← hk]; exact skip_suffix s)
        have hl := skip_cons_length hk
        rw [scan_go hb hk, scan_go (by rw [← h0, hb]) hk, ih (by omega) fun y hy => h y (hy.trans hr)]

/-- A text that ends with a character which is not white space, or is empty. -/
def Ended (a : List Char) : Prop := a = [] ∨ ∃ x c, a = x ++ [c] ∧ isSpace c = false

theorem scan_append {stop : List Char → Bool} (n : ℕ) : ∀ {a b : List Char}, a.length ≤ n → Ended a →
    (∀ y, y <:+ a → y ≠ [] → stop (y ++ b) = false) →
    scan stop (a ++ b) = (nonspace a ++ (scan stop b).1, (scan stop b).2) := by
  induction n with
  | zero =>
    intro a b ha _ _
    have : a = [] := List.eq_nil_of_length_eq_zero (by omega)
    subst this
    rfl
  | succ n ih =>
    intro a b ha he h
    rcases he with rfl | ⟨x, c, rfl, hc⟩
    · rfl
    · have hne : skip (x ++ [c]) ≠ [] := by
        intro e
        have := skip_nil_ws e c (by simp)
        rw [hc] at this; cases this
      cases hk : skip (x ++ [c]) with
      | nil => exact absurd hk hne
      | cons d r =>
        have hsuf : r <:+ x ++ [c] := (List.suffix_cons d r).trans (by rw [← hk]; exact skip_suffix _)
        have hl := skip_cons_length hk
        have hd := skip_cons_nonspace hk
        have hr : Ended r := by
          by_cases hr0 : r = []
          · exact Or.inl hr0
          · obtain ⟨z, hz⟩ := hsuf
            have := List.getLast_append_of_ne_nil (l := z) (by simp [hr0]) hr0
            refine Or.inr ⟨r.dropLast, c, ?_, hc⟩
            have e2 : r.getLast hr0 = c := by
              rw [← this]
              simp only [hz]
              simp
            rw [← e2, List.dropLast_append_getLast]
        have hns : nonspace (x ++ [c]) = d :: nonspace r := by
          obtain ⟨p, hp, e⟩ := skip_eq (x ++ [c])
          rw [hk] at e
          rw [e]
          unfold nonspace
          rw [List.filter_append, List.filter_cons_of_pos (by simp [hd])]
          have : p.filter (fun c => !isSpace c) = [] := by
            rw [List.filter_eq_nil_iff]
            intro c hc
            rw [hp c hc]; decide
          rw [this, List.nil_append]
        rw [scan_go (c := d) (r := r ++ b) (h _ (List.suffix_refl _) (by simp)) (by rw [skip_append hne, hk]; rfl),
          ih (by omega) hr fun y hy hy0 => h y (hy.trans hsuf) hy0, hns]
        rfl

/-! ### Statements -/

theorem suffix_append_cases {y a b : List Char} (h : y <:+ a ++ b) : (∃ a', a' <:+ a ∧ y = a' ++ b) ∨ y <:+ b := by
  obtain ⟨t, e⟩ := h
  rcases List.append_eq_append_iff.1 e with ⟨c, h1, h2⟩ | ⟨c, h1, h2⟩
  · exact Or.inl ⟨c, ⟨t, h1.symm⟩, h2⟩
  · exact Or.inr ⟨c, h2.symm⟩

theorem suffix_lower {i ident : List Char} (h : i <:+ ident) : lower i <:+ lower ident := by
  obtain ⟨t, rfl⟩ := h
  exact ⟨lower t, by simp [lower]⟩

/-- What follows a suffix of a statement, and what `all_names_` does there. -/
theorem stmt_suffix {s : Stmt} (hs : s.WF) {y : List Char} (hy : y <:+ s.text) (hne : y ≠ []) (b : List Char) :
    (∃ p i, Ws p ∧ i <:+ s.ident ∧ y = p ++ (i ++ (s.mid ++ ':' :: (s.val ++ [';'])))) ∨
    (∃ p, Ws p ∧ y = p ++ ':' :: (s.val ++ [';'])) ∨
    ∃ v, v <:+ s.val ∧ y = v ++ [';'] := by
  unfold Stmt.text at hy
  rcases suffix_append_cases hy with ⟨p, hp, rfl⟩ | hy
  · exact Or.inl ⟨p, s.ident, fun c hc => hs.pre c (hp.subset hc), List.suffix_refl _, rfl⟩
  rcases suffix_append_cases hy with ⟨i, hi, rfl⟩ | hy
  · exact Or.inl ⟨[], i, fun c hc => by simp at hc, hi, rfl⟩
  rcases suffix_append_cases hy with ⟨m, hm, rfl⟩ | hy
  · exact Or.inr (Or.inl ⟨m, fun c hc => hs.mid c (hm.subset hc), rfl⟩)
  rcases List.suffix_cons_iff.1 hy with rfl | hy
  · exact Or.inr (Or.inl ⟨[], fun c hc => by simp at hc, rfl⟩)
  rcases suffix_append_cases hy with ⟨v, hv, rfl⟩ | hy
  · exact Or.inr (Or.inr ⟨v, hv, rfl⟩)
  rcases List.suffix_cons_iff.1 hy with rfl | hy
  · exact Or.inr (Or.inr ⟨[], List.nil_suffix, rfl⟩)
  · exact absurd (List.eq_nil_of_suffix_nil hy) hne

theorem stmt_names {s : Stmt} (hs : s.WF) {nm : List Char} (hn : NameOk nm) {y : List Char} (hy : y <:+ s.text)
    (hne : y ≠ []) (b : List Char) :
    nameColon nm (y ++ b) = none ∨ ∃ p i, Ws p ∧ i <:+ s.ident ∧ lower i = nm ∧
      y = p ++ (i ++ (s.mid ++ ':' :: (s.val ++ [';']))) := by
  rcases stmt_suffix hs hy hne b with ⟨p, i, hp, hi, rfl⟩ | ⟨p, hp, rfl⟩ | ⟨v, hv, rfl⟩
  · have := nameColon_ident (nm := nm) (w := s.val ++ ';' :: b) hn hp hs.mid fun c hc => hs.identChar c (hi.subset hc)
    have e : p ++ (i ++ (s.mid ++ ':' :: (s.val ++ [';']))) ++ b = p ++ (i ++ (s.mid ++ ':' :: (s.val ++ ';' :: b))) := by
      simp
    rw [e, this]
    by_cases h : lower i = nm
    · exact Or.inr ⟨p, i, hp, hi, h, rfl⟩
    · rw [if_neg h]; exact Or.inl rfl
  · have := nameColon_ident (nm := nm) (i := []) (w := s.val ++ ';' :: b) hn hp (m := [])
      (fun c hc => by simp at hc) (fun c hc => by simp at hc)
    have e : p ++ ':' :: (s.val ++ [';']) ++ b = p ++ ([] ++ ([] ++ ':' :: (s.val ++ ';' :: b))) := by simp
    rw [e, this, if_neg (fun h => hn.1 h.symm)]
    exact Or.inl rfl
  · have := nameColon_val (nm := nm) (v := v) (w := b) hn fun c hc => hs.val c (hv.subset hc)
    rw [List.append_assoc, List.cons_append, List.nil_append, this]
    exact Or.inl rfl

theorem text_ended (s : Stmt) : Ended s.text :=
  Or.inr ⟨s.pre ++ (s.ident ++ (s.mid ++ ':' :: s.val)), ';', by simp [Stmt.text], by decide⟩

/-- The settings of a parser: good names, none of which is a suffix of another; different members. -/
structure SetsOk (sets : List Setting) : Prop where
  name : ∀ st ∈ sets, NameOk st.name
  free : ∀ st ∈ sets, ∀ st' ∈ sets, st.name <:+ st'.name → st = st'
  field : ∀ st ∈ sets, ∀ st' ∈ sets, st.field = st'.field → st = st'

/-- The names of the settings. -/
abbrev names (sets : List Setting) : List (List Char) := sets.map (·.name)

/-- A statement that assigns no setting. -/
def Misses (sets : List Setting) (s : Stmt) : Prop := ∀ st ∈ sets, ¬ EndsWith st s

theorem scan_miss {sets : List Setting} (ho : SetsOk sets) {s : Stmt} (hs : s.WF) (hm : Misses sets s) (b : List Char) :
    scan (atName (names sets)) (s.text ++ b) =
      (nonspace s.text ++ (scan (atName (names sets)) b).1, (scan (atName (names sets)) b).2) := by
  refine scan_append _ (le_refl _) (text_ended s) fun y hy hne => ?_
  rw [atName_false]
  intro nm hnm
  obtain ⟨st, hst, rfl⟩ := List.mem_map.1 hnm
  rcases stmt_names hs (ho.name st hst) hy hne b with h | ⟨p, i, -, hi, h, -⟩
  · exact h
  · exact absurd (by unfold EndsWith; rw [← h]; exact suffix_lower hi) (hm st hst)

/-- The part of the identifier before the name of the setting. -/
def identPrefix (st : Setting) (s : Stmt) : List Char := s.ident.take (s.ident.length - st.name.length)

theorem ends_split {st : Setting} {s : Stmt} (h : EndsWith st s) :
    ∃ i, s.ident = identPrefix st s ++ i ∧ lower i = st.name := by
  obtain ⟨t, e⟩ := h
  refine ⟨s.ident.drop (s.ident.length - st.name.length), (List.take_append_drop _ _).symm, ?_⟩
  have hl : t.length + st.name.length = s.ident.length := by
    have := congrArg List.length e
    simpa [lower] using this
  have e1 : lower (s.ident.drop (s.ident.length - st.name.length)) =
      (lower s.ident).drop (s.ident.length - st.name.length) := by
    unfold lower
    rw [List.map_drop]
  rw [e1, ← e]
  have e2 : s.ident.length - st.name.length = t.length := by omega
  rw [e2, List.drop_left]

theorem ends_unique {sets : List Setting} (ho : SetsOk sets) {st st' : Setting} (h : st ∈ sets) (h' : st' ∈ sets) {s : Stmt}
    (he : EndsWith st s) (he' : EndsWith st' s) : st = st' := by
  rcases List.suffix_or_suffix_of_suffix he he' with h1 | h1
  · exact ho.free st h st' h' h1
  · exact (ho.free st' h' st h h1).symm

theorem scan_hit {sets : List Setting} (ho : SetsOk sets) {s : Stmt} (hs : s.WF) {st : Setting} (hst : st ∈ sets)
    (he : EndsWith st s) (b : List Char) : ∃ p i, Ws p ∧ lower i = st.name ∧
      scan (atName (names sets)) (s.text ++ b) =
        (nonspace (identPrefix st s), p ++ (i ++ (s.mid ++ ':' :: (s.val ++ ';' :: b)))) := by
  obtain ⟨i, e, hi⟩ := ends_split he
  have hstop : ∀ p, Ws p → atName (names sets) (p ++ (i ++ (s.mid ++ ':' :: (s.val ++ ';' :: b)))) = true := by
    intro p hp
    rw [atName_true]
    exact ⟨st.name, List.mem_map_of_mem hst, by rw [nameColon_of (ho.name st hst) hp hs.mid hi]; rfl⟩
  have et : s.text ++ b = (s.pre ++ identPrefix st s) ++ (i ++ (s.mid ++ ':' :: (s.val ++ ';' :: b))) := by
    unfold Stmt.text
    generalize identPrefix st s = x at e
    rw [e]
    simp
  have hxc : ∀ c ∈ identPrefix st s, isSpace c = false := fun c hc => (hs.identChar c (by rw [e]; simp [hc])).1
  by_cases hx : identPrefix st s = []
  · refine ⟨s.pre, i, hs.pre, hi, ?_⟩
    rw [et, hx, List.append_nil, scan_stop (hstop _ hs.pre)]
    rfl
  · refine ⟨[], i, fun c hc => by simp at hc, hi, ?_⟩
    have hend : Ended (s.pre ++ identPrefix st s) := by
      refine Or.inr ⟨s.pre ++ (identPrefix st s).dropLast, (identPrefix st s).getLast hx, ?_,
        hxc _ (List.getLast_mem hx)⟩
      rw [List.append_assoc, List.dropLast_append_getLast]
    rw [et, scan_append _ (le_refl _) hend ?_, scan_stop (by simpa using hstop [] (fun c hc => by simp at hc))]
    · have := core_eq (p := s.pre) (m := []) hs.pre (fun c hc => by simp at hc) hxc
      rw [List.append_nil] at this
      rw [this]
      have h3 := core_eq (p := []) (m := []) (fun c hc => by simp at hc) (fun c hc => by simp at hc) hxc
      simp only [List.nil_append, List.append_nil] at h3
      rw [h3]
      simp
    · intro y hy hne
      rw [atName_false]
      intro nm hnm
      obtain ⟨st', hst', rfl⟩ := List.mem_map.1 hnm
      have key : ∀ p x, Ws p → x <:+ identPrefix st s → y = p ++ x → (p = [] → x ≠ []) → (x = [] → False) →
          nameColon st'.name (y ++ (i ++ (s.mid ++ ':' :: (s.val ++ ';' :: b)))) = none := by
        intro p x hp hxs ey _ hx0
        have hc : ∀ c ∈ x ++ i, isSpace c = false ∧ c ≠ ':' ∧ c ≠ ';' := by
          intro c hc
          refine hs.identChar c ?_
          rw [e]
          rcases List.mem_append.1 hc with hc | hc
          · exact List.mem_append_left _ (hxs.subset hc)
          · exact List.mem_append_right _ hc
        have := nameColon_ident (w := s.val ++ ';' :: b) (ho.name st' hst') hp hs.mid hc
        have e2 : y ++ (i ++ (s.mid ++ ':' :: (s.val ++ ';' :: b))) =
            p ++ ((x ++ i) ++ (s.mid ++ ':' :: (s.val ++ ';' :: b))) := by
          rw [ey]; simp
        rw [e2, this, if_neg]
        intro hl
        have hsuf : st.name <:+ st'.name := ⟨lower x, by rw [← hl, ← hi]; simp [lower]⟩
        have heq := ho.free st hst st' hst' hsuf
        rw [← heq, ← hi] at hl
        have := congrArg List.length hl
        simp only [lower, List.length_map, List.length_append] at this
        exact hx0 (List.eq_nil_of_length_eq_zero (by omega))
      rcases suffix_append_cases hy with ⟨p, hp, ey⟩ | hy'
      · exact key p _ (fun c hc => hs.pre c (hp.subset hc)) (List.suffix_refl _) ey (fun _ => hx) hx
      · exact key [] y (fun c hc => by simp at hc) hy' rfl (fun _ => hne) hne

/-! ### Values -/

/-- The name of a variable as the code reads it: white space inside it is dropped. -/
def VarText (v n : List Char) : Prop :=
  n = nonspace v ∧ ∃ a b, n = a ++ b ∧ a ≠ [] ∧ (∀ c ∈ a, isAlpha c = true) ∧ ∀ c ∈ b, isNameChar c = true

/-- What the code makes of the text of a value; `j` is the text skipped before the name of the setting. -/
def Den (k : Kind) (j v : List Char) (x : Value) : Prop :=
  match k with
  | .var => ∃ n, VarText v n ∧ x = .str (j ++ n)
  | k => Denotes false k v x

/-- Tables of symbols are in order. -/
def KOk : Kind → Prop
  | .sym T => KeysOk T
  | _ => True

theorem nonspace_append (a b : List Char) : nonspace (a ++ b) = nonspace a ++ nonspace b := List.filter_append ..

theorem nonspace_ws {p : List Char} (hp : Ws p) : nonspace p = [] := by
  unfold nonspace
  rw [List.filter_eq_nil_iff]
  intro c hc
  rw [hp c hc]; decide

theorem nonspace_nil_ws {p : List Char} (h : nonspace p = []) : Ws p := by
  intro c hc
  unfold nonspace at h
  rw [List.filter_eq_nil_iff] at h
  simpa using h c hc

theorem chars_ok (p : Char → Bool) (n : ℕ) : ∀ s : List Char, s.length ≤ n → ∃ y, s = y ++ (chars p s).2 ∧
    nonspace y = (chars p s).1 ∧ (∀ c ∈ (chars p s).1, p c = true) ∧
    ∀ c r, skip (chars p s).2 = c :: r → p c = false := by
  induction n with
  | zero =>
    intro s hs
    have : s = [] := List.eq_nil_of_length_eq_zero (by omega)
    subst this
    have e : chars p [] = ([], []) := by
      rw [chars]; rfl
    rw [e]
    exact ⟨[], rfl, rfl, fun c hc => by simp at hc, fun c r h => by cases h⟩
  | succ n ih =>
    intro s hs
    cases hk : skip s with
    | nil =>
      have e : chars p s = ([], s) := by
        rw [chars]
        split
        · rfl
        · rename_i he; rw [hk] at he; cases he
      rw [e]
      exact ⟨[], rfl, rfl, fun c hc => by simp at hc, fun c r h => by rw [hk] at h; cases h⟩
    | cons d r =>
      have hl := skip_cons_length hk
      cases hd : p d with
      | false =>
        have e : chars p s = ([], s) := by
          rw [chars]
          split
          · rfl
          · rename_i c' r' he
            rw [hk] at he
            injection he with h1 h2
            subst h1 h2
            rw [if_neg (by rw [hd]; decide)]
        rw [e]
        refine ⟨[], rfl, rfl, fun c hc => by simp at hc, fun c r' h => ?_⟩
        rw [hk] at h
        injection h with h1 h2
        rw [← h1]; exact hd
      | true =>
        have e : chars p s = (d :: (chars p r).1, (chars p r).2) := by
          rw [chars]
          split
          · rename_i he; rw [hk] at he; cases he
          · rename_i c' r' he
            rw [hk] at he
            injection he with h1 h2
            subst h1 h2
            rw [if_pos hd]
        obtain ⟨y, e1, e2, e3, e4⟩ := ih r (by omega)
        obtain ⟨q, hq, e5⟩ := skip_eq s
        rw [hk] at e5
        rw [e]
        refine ⟨q ++ d :: y, ?_, ?_, ?_, e4⟩
        · calc s = q ++ d :: r := e5
            _ = _ := by rw [List.append_assoc, List.cons_append, ← e1]
        · rw [nonspace_append, nonspace_ws hq, List.nil_append, ← e2]
          unfold nonspace
          rw [List.filter_cons_of_pos (by simp [skip_cons_nonspace hk])]
        · intro c hc
          rcases List.mem_cons.1 hc with rfl | hc
          · exact hd
          · exact e3 c hc

theorem nameChar_iff (d : Char) :
    isNameChar d = true ↔ isAlpha d = true ∨ '0' ≤ d ∧ d ≤ '9' ∨ d = '[' ∨ d = ']' ∨ d = '_' := by
  unfold isNameChar isAlnum isDigit
  simp only [Bool.or_eq_true, Bool.and_eq_true, decide_eq_true_eq]
  tauto

theorem alpha_name {c : Char} (h : isAlpha c = true) : isNameChar c = true := by
  unfold isNameChar isAlnum
  rw [h]
  rfl

theorem mem_nonspace {c : Char} {s : List Char} : c ∈ nonspace s ↔ c ∈ s ∧ isSpace c = false := by
  unfold nonspace
  rw [List.mem_filter]
  simp

theorem var_decomp (s : List Char) : ∃ y1 y2, s = y1 ++ (y2 ++ (chars isNameChar (chars isAlpha s).2).2) ∧
    nonspace y1 = (chars isAlpha s).1 ∧ nonspace y2 = (chars isNameChar (chars isAlpha s).2).1 ∧
    (∀ c ∈ (chars isAlpha s).1, isAlpha c = true) ∧
    (∀ c ∈ (chars isNameChar (chars isAlpha s).2).1, isNameChar c = true) ∧
    (∀ c r, skip (chars isAlpha s).2 = c :: r → isAlpha c = false) ∧
    (∀ c r, skip (chars isNameChar (chars isAlpha s).2).2 = c :: r → isNameChar c = false) ∧ ';' ∉ y1 ++ y2 := by
  obtain ⟨y1, a1, a2, a3, a4⟩ := chars_ok isAlpha _ s (le_refl _)
  obtain ⟨y2, b1, b2, b3, b4⟩ := chars_ok isNameChar _ (chars isAlpha s).2 (le_refl _)
  refine ⟨y1, y2, by rw [← b1]; exact a1, a2, b2, a3, b3, a4, b4, ?_⟩
  intro hm
  rcases List.mem_append.1 hm with hm | hm
  · have := a3 ';' (by rw [← a2, mem_nonspace]; exact ⟨hm, by decide⟩)
    revert this; decide
  · have := b3 ';' (by rw [← b2, mem_nonspace]; exact ⟨hm, by decide⟩)
    revert this; decide

theorem var_accepts {v n : List Char} (hv : ';' ∉ v) (h : VarText v n) (rest : List Char) :
    ∃ q, Ws q ∧ varP (v ++ ';' :: rest) = .ok n (q ++ ';' :: rest) := by
  obtain ⟨hn, a, b, e, ha, haa, hb⟩ := h
  obtain ⟨y1, y2, h1, h2, h3, h4, h5, h6, h7, h8⟩ := var_decomp (v ++ ';' :: rest)
  set s := v ++ ';' :: rest with hs
  obtain ⟨q, e1, e2⟩ := split_semi (c := y1 ++ y2) (r := (chars isNameChar (chars isAlpha s).2).2)
    (by rw [← hs, List.append_assoc]; exact h1) h8
  have hall : ∀ c ∈ nonspace v, isNameChar c = true := by
    intro c hc
    rw [← hn, e] at hc
    rcases List.mem_append.1 hc with hc | hc
    · exact alpha_name (haa c hc)
    · exact hb c hc
  have hq : Ws q := by
    by_contra hq
    have hne : skip q ≠ [] := fun e => hq (skip_nil_ws e)
    cases hk : skip q with
    | nil => exact hne hk
    | cons d r =>
      have hd : isNameChar d = false := h7 d (r ++ ';' :: rest) (by rw [e2, skip_append hne, hk]; rfl)
      have := hall d (by
        rw [mem_nonspace]
        refine ⟨?_, skip_cons_nonspace hk⟩
        rw [e1]
        exact List.mem_append_right _ (mem_of_skip (by rw [hk]; simp)))
      rw [hd] at this; cases this
  have hx : nonspace v = (chars isAlpha s).1 ++ (chars isNameChar (chars isAlpha s).2).1 := by
    rw [e1, nonspace_append, nonspace_append, nonspace_ws hq, List.append_nil, h2, h3]
  have hne : (chars isAlpha s).1 ≠ [] := by
    intro h0
    have hw : Ws y1 := nonspace_nil_ws (by rw [h2, h0])
    have hes : skip s = skip (chars isAlpha s).2 := by
      obtain ⟨y, i1, i2, -, -⟩ := chars_ok isAlpha _ s (le_refl _)
      have hy : Ws y := nonspace_nil_ws (by rw [i2, h0])
      calc skip s = skip (y ++ (chars isAlpha s).2) := by rw [← i1]
        _ = _ := skip_ws y _ hy
    cases a with
    | nil => exact ha rfl
    | cons c a =>
      have hv0 : skip v ≠ [] := by
        intro h00
        have := nonspace_ws (skip_nil_ws h00)
        rw [← hn, e] at this
        cases this
      cases hk : skip v with
      | nil => exact hv0 hk
      | cons d r =>
        have hdc : d = c := by
          obtain ⟨p, hp, ep⟩ := skip_eq v
          rw [hk] at ep
          have := congrArg nonspace ep
          rw [nonspace_append, nonspace_ws hp, List.nil_append, ← hn, e] at this
          unfold nonspace at this
          rw [List.filter_cons_of_pos (by simp [skip_cons_nonspace hk])] at this
          simp only [List.cons_append, List.cons.injEq] at this
          exact this.1.symm
        have := h6 d (r ++ ';' :: rest) (by rw [← hes, hs, skip_append hv0, hk]; rfl)
        rw [hdc, haa c (by simp)] at this
        cases this
  refine ⟨q, hq, ?_⟩
  unfold varP
  dsimp only
  rw [if_neg hne, ← hx, ← hn, e2]

theorem var_sound {v n r rest rest' : List Char} (hv : ';' ∉ v) (h : varP (v ++ ';' :: rest) = .ok n r)
    (he : eat ';' r = some rest') : rest' = rest ∧ VarText v n := by
  obtain ⟨y1, y2, h1, h2, h3, h4, h5, h6, h7, h8⟩ := var_decomp (v ++ ';' :: rest)
  set s := v ++ ';' :: rest with hs
  unfold varP at h
  dsimp only at h
  by_cases h0 : (chars isAlpha s).1 = []
  · rw [if_pos h0] at h; cases h
  · rw [if_neg h0] at h
    simp only [V.ok.injEq] at h
    obtain ⟨rfl, rfl⟩ := h
    obtain ⟨q, e1, e2⟩ := split_semi (c := y1 ++ y2) (r := (chars isNameChar (chars isAlpha s).2).2)
      (by rw [← hs, List.append_assoc]; exact h1) h8
    rw [e2] at he
    obtain ⟨hq, hr⟩ := semi_end (fun hm => hv (by rw [e1]; exact List.mem_append_right _ hm)) he
    refine ⟨hr, ?_, _, _, rfl, h0, h4, h5⟩
    rw [e1, nonspace_append, nonspace_append, nonspace_ws hq, List.append_nil, h2, h3]

/-- The value and the semicolon. -/
def valRule (k : Kind) (j s : List Char) : V Value :=
  match parseVal k j s with
  | .fail => .fail
  | .err => .err
  | .ok v r' =>
    match eat ';' r' with
    | some r'' => .ok v r''
    | none => .fail

theorem valRule_iff {k : Kind} (hk : KOk k) {v : List Char} (hv : ';' ∉ v) (j rest : List Char) (x : Value)
    (r : List Char) : valRule k j (v ++ ';' :: rest) = .ok x r ↔ r = rest ∧ Den k j v x := by
  have hkv : k = .var ∨ (KindOk k ∧ ∀ x, Den k j v x ↔ Denotes false k v x) := by
    cases k with
    | var => exact Or.inl rfl
    | sym T => exact Or.inr ⟨hk, fun x => Iff.rfl⟩
    | _ => exact Or.inr ⟨trivial, fun x => Iff.rfl⟩
  constructor
  · intro h
    unfold valRule at h
    split at h
    · cases h
    · cases h
    · rename_i v' r' hp
      split at h
      · rename_i r'' he
        simp only [V.ok.injEq] at h
        obtain ⟨rfl, rfl⟩ := h
        rcases hkv with rfl | ⟨h1, h2⟩
        · have hp' : (varP (v ++ ';' :: rest)).map (fun n => Value.str (j ++ n)) = .ok v' r' := hp
          cases hvp : varP (v ++ ';' :: rest) with
          | fail => rw [hvp] at hp'; cases hp'
          | err => rw [hvp] at hp'; cases hp'
          | ok n r0 =>
            rw [hvp] at hp'
            simp only [V.map, V.ok.injEq] at hp'
            obtain ⟨rfl, rfl⟩ := hp'
            obtain ⟨i1, i2⟩ := var_sound hv hvp he
            exact ⟨i1, n, i2, rfl⟩
        · obtain ⟨i1, i2⟩ := val_sound h1 hv hp he
          exact ⟨i1, (h2 _).2 i2⟩
      · cases h
  · rintro ⟨rfl, hd⟩
    rcases hkv with rfl | ⟨h1, h2⟩
    · obtain ⟨n, hn, rfl⟩ := hd
      obtain ⟨q, hq, e⟩ := var_accepts hv hn r
      unfold valRule parseVal
      dsimp only
      rw [e]
      simp only [V.map]
      rw [eat_ws ';' q r hq (by decide)]
    · obtain ⟨q, hq, e⟩ := val_accepts h1 ((h2 _).1 hd) j r
      unfold valRule
      rw [e]
      simp only
      rw [eat_ws ';' q r hq (by decide)]

theorem Den_unique {k : Kind} (hk : KOk k) {j v : List Char} (hv : ';' ∉ v) {x y : Value} (hx : Den k j v x)
    (hy : Den k j v y) : x = y := by
  have h1 := (valRule_iff hk hv j [] x []).2 ⟨rfl, hx⟩
  have h2 := (valRule_iff hk hv j [] y []).2 ⟨rfl, hy⟩
  rw [h1] at h2
  simp only [V.ok.injEq, and_true] at h2
  exact h2

/-! ### Rules on files -/

/-- The stops of a parser agree with `all_names_` everywhere in a text. -/
def StopOk (sch : Schema) (s : List Char) : Prop :=
  ∀ y, y <:+ s → sch.stopTry y = atName (names sch.sets) y ∧ sch.stopEnd y = atName (names sch.sets) y

theorem StopOk.mono {sch : Schema} {s t : List Char} (h : StopOk sch s) (ht : t <:+ s) : StopOk sch t :=
  fun y hy => h y (hy.trans ht)

theorem fileText_append (M G : List Stmt) (w : List Char) : fileText (M ++ G) w = fileText M (fileText G w) := by
  induction M with
  | nil => rfl
  | cons s M ih => simp [fileText, ih]

theorem fileText_suffix (M G : List Stmt) (w : List Char) : fileText G w <:+ fileText (M ++ G) w := by
  induction M with
  | nil => exact List.suffix_refl _
  | cons s M ih => exact ih.trans (List.suffix_append _ _)

/-- The text of statements without white space. -/
def junk : List Stmt → List Char
  | [] => []
  | s :: M => nonspace s.text ++ junk M

theorem scan_misses {sets : List Setting} (ho : SetsOk sets) {M : List Stmt} (hM : ∀ s ∈ M, s.WF ∧ Misses sets s)
    (b : List Char) : scan (atName (names sets)) (fileText M b) =
      (junk M ++ (scan (atName (names sets)) b).1, (scan (atName (names sets)) b).2) := by
  induction M with
  | nil => rfl
  | cons s M ih =>
    obtain ⟨h1, h2⟩ := hM s (by simp)
    rw [fileText, scan_miss ho h1 h2, ih fun s hs => hM s (by simp [hs]), junk, List.append_assoc]

theorem scan_end {sets : List Setting} (ho : SetsOk sets) {w : List Char} (hw : Ws w) :
    scan (atName (names sets)) w = ([], []) := by
  refine scan_nil ?_ (skip_all w hw)
  rw [atName_false]
  intro nm hnm
  obtain ⟨st, hst, rfl⟩ := List.mem_map.1 hnm
  exact nameColon_ws (ho.name st hst) hw

theorem rule_none {sch : Schema} (ho : SetsOk sch.sets) {F : List Stmt} {w : List Char} (hw : Ws w)
    (hs : StopOk sch (fileText F w)) (hF : ∀ s ∈ F, s.WF ∧ Misses sch.sets s) {st : Setting} (hst : st ∈ sch.sets) :
    rule sch st (fileText F w) = .fail ∧ (scan sch.stopEnd (fileText F w)).2 = [] := by
  have e1 : scan sch.stopTry (fileText F w) = (junk F, []) := by
    rw [scan_congr _ (le_refl _) fun y hy => (hs y hy).1, scan_misses ho hF, scan_end ho hw, List.append_nil]
  have e2 : scan sch.stopEnd (fileText F w) = (junk F, []) := by
    rw [scan_congr _ (le_refl _) fun y hy => (hs y hy).2, scan_misses ho hF, scan_end ho hw, List.append_nil]
  refine ⟨?_, by rw [e2]⟩
  unfold rule
  rw [e1]
  dsimp only
  rw [nameColon_ws (ho.name st hst) (fun c hc => by simp at hc)]

theorem end_none {sch : Schema} (ho : SetsOk sch.sets) {F : List Stmt} {w : List Char} (hw : Ws w)
    (hs : StopOk sch (fileText F w)) (hF : ∀ s ∈ F, s.WF ∧ Misses sch.sets s) :
    (scan sch.stopEnd (fileText F w)).2 = [] := by
  rw [scan_congr _ (le_refl _) fun y hy => (hs y hy).2, scan_misses ho hF, scan_end ho hw]

theorem rule_hit {sch : Schema} (ho : SetsOk sch.sets) {M F : List Stmt} {s : Stmt} {w : List Char}
    (hst : StopOk sch (fileText (M ++ s :: F) w)) (hM : ∀ s ∈ M, s.WF ∧ Misses sch.sets s) (hs : s.WF)
    {st : Setting} (hm : st ∈ sch.sets) (he : EndsWith st s) :
    (∀ st' ∈ sch.sets, rule sch st' (fileText (M ++ s :: F) w) =
      if st'.name = st.name then
        valRule st'.kind (junk M ++ nonspace (identPrefix st s)) (s.val ++ ';' :: fileText F w)
      else .fail) ∧
    skip (scan sch.stopEnd (fileText (M ++ s :: F) w)).2 ≠ [] := by
  obtain ⟨p, i, hp, hi, e⟩ := scan_hit ho hs hm he (fileText F w)
  have hic := chars_of_lower hi (ho.name st hm)
  have ef : fileText (M ++ s :: F) w = fileText M (s.text ++ fileText F w) := by rw [fileText_append]; rfl
  have e1 : scan sch.stopTry (fileText (M ++ s :: F) w) = (junk M ++ nonspace (identPrefix st s),
      p ++ (i ++ (s.mid ++ ':' :: (s.val ++ ';' :: fileText F w)))) := by
    rw [scan_congr _ (le_refl _) fun y hy => (hst y hy).1, ef, scan_misses ho hM, e]
  have e2 : scan sch.stopEnd (fileText (M ++ s :: F) w) = (junk M ++ nonspace (identPrefix st s),
      p ++ (i ++ (s.mid ++ ':' :: (s.val ++ ';' :: fileText F w)))) := by
    rw [scan_congr _ (le_refl _) fun y hy => (hst y hy).2, ef, scan_misses ho hM, e]
  constructor
  · intro st' hst'
    unfold rule
    rw [e1]
    dsimp only
    rw [nameColon_ident (ho.name st' hst') hp hs.mid hic.2, hi]
    by_cases h : st'.name = st.name
    · rw [if_pos h, if_pos h.symm]; rfl
    · rw [if_neg h, if_neg (fun h' => h h'.symm)]
  · rw [e2]
    dsimp only
    rw [skip_nonspace hp hic.1 fun c hc => (hic.2 c hc).1]
    simp [hic.1]

/-! ### The meaning of a file, one statement after the other -/

/-- `c` is what the statements make of the struct `a`; `used` are the settings assigned already, `j` is the text since the
last setting. -/
def Eval (sets : List Setting) : List Char → List (List Char) → Conf → List Stmt → Conf → Prop
  | _, _, a, [], c => c = a
  | j, used, a, s :: F, c =>
    (Misses sets s → Eval sets (j ++ nonspace s.text) used a F c) ∧
    ∀ st ∈ sets, EndsWith st s → st.name ∉ used ∧ ∃ v, Den st.kind (j ++ nonspace (identPrefix st s)) s.val v ∧
      Eval sets [] (st.name :: used) (Function.update a st.field v) F c

theorem eval_misses {sets : List Setting} {M F : List Stmt} (hM : ∀ s ∈ M, Misses sets s) (j : List Char)
    (used : List (List Char)) (a c : Conf) : Eval sets j used a (M ++ F) c ↔ Eval sets (j ++ junk M) used a F c := by
  induction M generalizing j with
  | nil => simp [junk]
  | cons s M ih =>
    rw [List.cons_append, Eval, junk, ← List.append_assoc, ← ih fun s hs => hM s (by simp [hs])]
    have := hM s (by simp)
    constructor
    · exact fun h => h.1 this
    · exact fun h => ⟨fun _ => h, fun st hst he => absurd he (this st hst)⟩

theorem eval_hit {sets : List Setting} (ho : SetsOk sets) {s : Stmt} {F : List Stmt} {st : Setting} (hm : st ∈ sets)
    (he : EndsWith st s) (j : List Char) (used : List (List Char)) (a c : Conf) :
    Eval sets j used a (s :: F) c ↔ st.name ∉ used ∧ ∃ v, Den st.kind (j ++ nonspace (identPrefix st s)) s.val v ∧
      Eval sets [] (st.name :: used) (Function.update a st.field v) F c := by
  rw [Eval]
  constructor
  · exact fun h => h.2 st hm he
  · refine fun h => ⟨fun hmiss => absurd he (hmiss st hm), fun st' hm' he' => ?_⟩
    rw [← ends_unique ho hm hm' he he']
    exact h

theorem first_hit (sets : List Setting) (F : List Stmt) : (∀ s ∈ F, Misses sets s) ∨
    ∃ M s G st, F = M ++ s :: G ∧ (∀ s ∈ M, Misses sets s) ∧ st ∈ sets ∧ EndsWith st s := by
  induction F with
  | nil => exact Or.inl fun s hs => by simp at hs
  | cons s F ih =>
    by_cases h : Misses sets s
    · rcases ih with ih | ⟨M, s', G, st, rfl, h1, h2, h3⟩
      · exact Or.inl fun s' hs' => by
          rcases List.mem_cons.1 hs' with rfl | hs'
          · exact h
          · exact ih s' hs'
      · exact Or.inr ⟨s :: M, s', G, st, rfl, fun s'' hs'' => by
          rcases List.mem_cons.1 hs'' with rfl | hs''
          · exact h
          · exact h1 s'' hs'', h2, h3⟩
    · unfold Misses at h
      push Not at h
      obtain ⟨st, h1, h2⟩ := h
      exact Or.inr ⟨[], s, F, st, rfl, fun s hs => by simp at hs, h1, h2⟩

/-- What one pass over the settings does. -/
theorem pass_spec {sch : Schema} (ho : SetsOk sch.sets) (hk : ∀ st ∈ sch.sets, KOk st.kind) {w : List Char} (hw : Ws w)
    (L : List Setting) (hL : L ⊆ sch.sets) : ∀ (used : List (List Char)) (a : Conf) (F : List Stmt),
    (∀ s ∈ F, s.WF) → StopOk sch (fileText F w) → used.Nodup → used ⊆ names sch.sets →
    match pass sch L used a (fileText F w) with
    | none => ∀ c, ¬ Eval sch.sets [] used a F c
    | some (b, used', a', s') =>
      ∃ M F', F = M ++ F' ∧ s' = fileText F' w ∧ (∀ c, Eval sch.sets [] used a F c ↔ Eval sch.sets [] used' a' F' c) ∧
        used'.Nodup ∧ used' ⊆ names sch.sets ∧ used.length ≤ used'.length ∧ (b = true → used.length < used'.length) ∧
        (b = false → M = [] ∧ used' = used ∧ a' = a ∧
          ∀ st ∈ L, st.name ∉ used → ∀ v r, rule sch st (fileText F w) ≠ .ok v r) := by
  induction L with
  | nil =>
    intro used a F hF hs hn hu
    rw [pass]
    exact ⟨[], F, rfl, rfl, fun c => Iff.rfl, hn, hu, le_refl _, (by intro h; cases h),
      fun _ => ⟨rfl, rfl, rfl, fun st hst => by simp at hst⟩⟩
  | cons st L ih =>
    intro used a F hF hs hn hu
    have hst : st ∈ sch.sets := hL (by simp)
    have hL' : L ⊆ sch.sets := fun x hx => hL (by simp [hx])
    have skipCase : (st.name ∈ used ∨ rule sch st (fileText F w) = .fail) →
        pass sch (st :: L) used a (fileText F w) = pass sch L used a (fileText F w) →
        match pass sch (st :: L) used a (fileText F w) with
        | none => ∀ c, ¬ Eval sch.sets [] used a F c
        | some (b, used', a', s') =>
          ∃ M F', F = M ++ F' ∧ s' = fileText F' w ∧
            (∀ c, Eval sch.sets [] used a F c ↔ Eval sch.sets [] used' a' F' c) ∧
            used'.Nodup ∧ used' ⊆ names sch.sets ∧ used.length ≤ used'.length ∧ (b = true → used.length < used'.length) ∧
            (b = false → M = [] ∧ used' = used ∧ a' = a ∧
              ∀ st' ∈ st :: L, st'.name ∉ used → ∀ v r, rule sch st' (fileText F w) ≠ .ok v r) := by
      intro hor e
      have := ih hL' used a F hF hs hn hu
      rw [e]
      cases hp : pass sch L used a (fileText F w) with
      | none => rw [hp] at this; exact this
      | some x =>
        obtain ⟨b, used', a', s'⟩ := x
        rw [hp] at this
        obtain ⟨M, F', h1, h2, h3, h4, h5, h6, h7, h8⟩ := this
        refine ⟨M, F', h1, h2, h3, h4, h5, h6, h7, fun hb => ?_⟩
        obtain ⟨i1, i2, i3, i4⟩ := h8 hb
        refine ⟨i1, i2, i3, fun st' hst' hnu v r => ?_⟩
        rcases List.mem_cons.1 hst' with rfl | hst'
        · rcases hor with h | h
          · exact absurd h hnu
          · rw [h]; intro hc; cases hc
        · exact i4 st' hst' hnu v r
    by_cases hus : st.name ∈ used
    · exact skipCase (Or.inl hus) (by rw [pass, if_pos hus])
    · cases hr : rule sch st (fileText F w) with
      | fail => exact skipCase (Or.inr hr) (by rw [pass, if_neg hus, hr])
      | err =>
        rw [pass, if_neg hus, hr]
        intro c hc
        rcases first_hit sch.sets F with hall | ⟨M, s, G, st', rfl, h1, h2, h3⟩
        · rw [(rule_none ho hw hs (fun s hsF => ⟨hF s hsF, hall s hsF⟩) hst).1] at hr
          cases hr
        · have hM : ∀ s ∈ M, s.WF ∧ Misses sch.sets s := fun s hsM => ⟨hF s (by simp [hsM]), h1 s hsM⟩
          have := (rule_hit ho hs hM (hF s (by simp)) h2 h3).1 st hst
          rw [hr] at this
          split_ifs at this with hnm
          have heq : st = st' := ho.free st hst st' h2 (by rw [hnm])
          subst heq
          rw [eval_misses h1, eval_hit ho hst h3] at hc
          obtain ⟨-, v, hv, -⟩ := hc
          have := (valRule_iff (hk st hst) (fun hm => ((hF s (by simp)).val _ hm).2 rfl) _ (fileText G w) v _).2
            ⟨rfl, by simpa using hv⟩
          simp_all
      | ok v s' =>
        rcases first_hit sch.sets F with hall | ⟨M, s, G, st', rfl, h1, h2, h3⟩
        · rw [(rule_none ho hw hs (fun s hsF => ⟨hF s hsF, hall s hsF⟩) hst).1] at hr
          cases hr
        · have hM : ∀ s ∈ M, s.WF ∧ Misses sch.sets s := fun s hsM => ⟨hF s (by simp [hsM]), h1 s hsM⟩
          have hsw := hF s (by simp)
          have hv0 : ';' ∉ s.val := fun hm => (hsw.val _ hm).2 rfl
          have hrule := (rule_hit ho hs hM hsw h2 h3).1 st hst
          rw [hr] at hrule
          split_ifs at hrule with hnm
          have heq : st = st' := ho.free st hst st' h2 (by rw [hnm])
          subst heq
          obtain ⟨hs', hden⟩ := (valRule_iff (hk st hst) hv0 _ _ _ _).1 hrule.symm
          subst hs'
          have hsuf : fileText G w <:+ fileText (M ++ s :: G) w := by
            have := fileText_suffix (M ++ [s]) G w
            simpa using this
          have hev : ∀ c, Eval sch.sets [] used a (M ++ s :: G) c ↔
              Eval sch.sets [] (st.name :: used) (Function.update a st.field v) G c := by
            intro c
            rw [eval_misses h1, eval_hit ho hst h3]
            constructor
            · rintro ⟨-, v', hv', h⟩
              rw [Den_unique (hk st hst) hv0 hden (by simpa using hv')]
              exact h
            · exact fun h => ⟨hus, v, by simpa using hden, h⟩
          have := ih hL' (st.name :: used) (Function.update a st.field v) G (fun s' hs' => hF s' (by simp [hs']))
            (hs.mono hsuf) (List.nodup_cons.2 ⟨hus, hn⟩) (by
              intro x hx
              rcases List.mem_cons.1 hx with rfl | hx
              · exact List.mem_map_of_mem hst
              · exact hu hx)
          rw [pass, if_neg hus, hr]
          dsimp only
          cases hp : pass sch L (st.name :: used) (Function.update a st.field v) (fileText G w) with
          | none =>
            rw [hp] at this
            intro c hc
            exact this c ((hev c).1 hc)
          | some x =>
            obtain ⟨b, used', a', s''⟩ := x
            rw [hp] at this
            obtain ⟨M', F', i1, i2, i3, i4, i5, i6, i7, i8⟩ := this
            simp only [List.length_cons] at i6
            refine ⟨M ++ s :: M', F', by rw [i1]; simp, i2, fun c => (hev c).trans (i3 c), i4, i5, by omega,
              fun _ => by omega, (by intro hb; cases hb)⟩

theorem passes_spec {sch : Schema} (ho : SetsOk sch.sets) (hk : ∀ st ∈ sch.sets, KOk st.kind) {w : List Char} (hw : Ws w)
    (n : ℕ) : ∀ (used : List (List Char)) (a : Conf) (F : List Stmt),
    (∀ s ∈ F, s.WF) → StopOk sch (fileText F w) → used.Nodup → used ⊆ names sch.sets →
    sch.sets.length < n + used.length →
    ∀ c, (∃ s', passes sch n used a (fileText F w) = some (c, s') ∧ skip (scan sch.stopEnd s').2 = []) ↔
      Eval sch.sets [] used a F c := by
  induction n with
  | zero =>
    intro used a F hF hs hn hu hlen c
    exfalso
    have : used.length ≤ (names sch.sets).length := (hn.subperm hu).length_le
    rw [List.length_map] at this
    omega
  | succ n ih =>
    intro used a F hF hs hn hu hlen c
    have hp := pass_spec ho hk hw sch.sets (fun x hx => hx) used a F hF hs hn hu
    rw [passes]
    cases hps : pass sch sch.sets used a (fileText F w) with
    | none =>
      rw [hps] at hp
      constructor
      · rintro ⟨s', h, -⟩; cases h
      · exact fun h => absurd h (hp c)
    | some x =>
      obtain ⟨b, used', a', s'⟩ := x
      rw [hps] at hp
      obtain ⟨M, F', h1, rfl, h3, h4, h5, h6, h7, h8⟩ := hp
      cases b with
      | true =>
        dsimp only
        have := h7 rfl
        rw [h3 c]
        exact ih used' a' F' (fun s hsF => hF s (by rw [h1]; simp [hsF]))
          (hs.mono (by rw [h1]; exact fileText_suffix M F' w)) h4 h5 (by omega) c
      | false =>
        dsimp only
        obtain ⟨rfl, rfl, rfl, hno⟩ := h8 rfl
        rw [List.nil_append] at h1
        subst h1
        rcases first_hit sch.sets F with hall | ⟨M, s, G, st, rfl, g1, g2, g3⟩
        · have hall' : ∀ s ∈ F, s.WF ∧ Misses sch.sets s := fun s hsF => ⟨hF s hsF, hall s hsF⟩
          have he := end_none ho hw hs hall'
          have hev := eval_misses (F := []) hall [] used' a' c
          rw [List.append_nil] at hev
          rw [hev, Eval]
          constructor
          · rintro ⟨s', h, -⟩
            simp only [Option.some.injEq, Prod.mk.injEq] at h
            exact h.1.symm
          · rintro rfl
            exact ⟨_, rfl, by rw [he]; rfl⟩
        · have hM : ∀ s ∈ M, s.WF ∧ Misses sch.sets s := fun s hsM => ⟨hF s (by simp [hsM]), g1 s hsM⟩
          have hsw := hF s (by simp)
          have hv0 : ';' ∉ s.val := fun hm => (hsw.val _ hm).2 rfl
          obtain ⟨r1, r2⟩ := rule_hit ho hs hM hsw g2 g3
          constructor
          · rintro ⟨s', h, h'⟩
            simp only [Option.some.injEq, Prod.mk.injEq] at h
            rw [← h.2] at h'
            exact absurd h' r2
          · intro hev
            exfalso
            rw [eval_misses g1, eval_hit ho g2 g3] at hev
            obtain ⟨hnu, v, hv, -⟩ := hev
            have := r1 st g2
            rw [if_pos rfl, (valRule_iff (hk st g2) hv0 _ (fileText G w) v _).2 ⟨rfl, by simpa using hv⟩] at this
            exact hno st g2 hnu _ _ this

/-- The parser of a struct, on a text made of statements. -/
theorem fill_iff {sch : Schema} (ho : SetsOk sch.sets) (hk : ∀ st ∈ sch.sets, KOk st.kind) {w : List Char} (hw : Ws w)
    {F : List Stmt} (hF : ∀ s ∈ F, s.WF) (hs : StopOk sch (fileText F w)) (c : Conf) :
    fill sch (fileText F w) = some c ↔ Eval sch.sets [] [] sch.dflt F c := by
  have := passes_spec ho hk hw (sch.sets.length + 1) [] sch.dflt F hF hs List.nodup_nil (fun x hx => by simp at hx)
    (by simp) c
  rw [← this]
  unfold fill
  cases hp : passes sch (sch.sets.length + 1) [] sch.dflt (fileText F w) with
  | none =>
    constructor
    · intro h; cases h
    · rintro ⟨s', h, -⟩; cases h
  | some x =>
    obtain ⟨a, s'⟩ := x
    dsimp only
    constructor
    · intro h
      split_ifs at h with h1
      simp only [Option.some.injEq] at h
      exact ⟨s', by rw [h], h1⟩
    · rintro ⟨s'', h, h1⟩
      simp only [Option.some.injEq, Prod.mk.injEq] at h
      obtain ⟨rfl, rfl⟩ := h
      rw [if_pos h1]

end B2.Parse.Config
