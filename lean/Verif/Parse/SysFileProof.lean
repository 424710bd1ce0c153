import Verif.Parse.SysFile

/-!
# Lemmas about the parser of whole systems
-/

namespace B2.Parse.SysFile

open B2 B2.Parse

theorem space_notName (c : Char) (h : isSpace c = true) : isNameChar c = false := by
  simp only [isSpace, Bool.or_eq_true, decide_eq_true_eq] at h
  rcases h with ((((h' | h') | h') | h') | h') | h' <;> rw [h'] <;> decide

theorem head_ws (w : List Char) (c : Char) (s : List Char) (hw : Ws w) (hc : isNameChar c = false) :
    ∀ d, (w ++ c :: s).head? = some d → isNameChar d = false := by
  intro d hd
  cases w with
  | nil => simp only [List.nil_append, List.head?_cons, Option.some.injEq] at hd; subst hd; exact hc
  | cons e w =>
    simp only [List.cons_append, List.head?_cons, Option.some.injEq] at hd
    subst hd
    exact space_notName _ (hw _ List.mem_cons_self)

theorem ws_nil' : Ws [] := by intro c hc; cases hc

/-! ## Lists of names -/

/-- Text of further names. -/
def moreItems : List Item → List Char
  | [] => []
  | i :: is => ',' :: (i.text ++ moreItems is)

theorem itemsText_cons (i : Item) (is : List Item) : itemsText (i :: is) = i.text ++ moreItems is := by
  induction is generalizing i with
  | nil => simp [itemsText, moreItems]
  | cons j is ih => rw [itemsText, ih j, moreItems]; simp

theorem moreItems_head (is : List Item) (p rest : List Char) (hp : Ws p) :
    ∀ c, (p ++ (moreItems is ++ ';' :: rest)).head? = some c → isNameChar c = false := by
  cases is with
  | nil => exact head_ws p ';' rest hp (by decide)
  | cons i is =>
    rw [moreItems, List.cons_append]
    exact head_ws p ',' _ hp (by decide)

/-- A well-formed list of names. -/
def ItemsOk (is : List Item) : Prop := ∀ i ∈ is, Ws i.pre ∧ IsName i.name ∧ Ws i.post

theorem allFresh_nil (K : List Name) : AllFresh K [] := ⟨fun _ h => absurd h List.not_mem_nil, List.Pairwise.nil⟩

theorem declLoop_items (is : List Item) : ∀ (K : List Name) (p rest : List Char), Ws p →
    (∀ k ∈ K, ∀ c ∈ k, isNameChar c = true) → ItemsOk is →
    (AllFresh K (is.map (·.name)) → ∃ q, Ws q ∧
      declLoop K (p ++ (moreItems is ++ ';' :: rest)) = (is.map (·.name), q ++ ';' :: rest)) ∧
    (¬ AllFresh K (is.map (·.name)) → ∃ q u, Ws q ∧ (declLoop K (p ++ (moreItems is ++ ';' :: rest))).2 = q ++ ',' :: u) := by
  induction is with
  | nil =>
    intro K p rest hp hK hn
    constructor
    · intro _
      refine ⟨p, hp, ?_⟩
      rw [declLoop, moreItems, List.nil_append, eat_none ',' ';' p rest hp (by decide) (by decide)]
      rfl
    · intro h
      exact absurd (allFresh_nil K) h
  | cons i is ih =>
    intro K p rest hp hK hn
    obtain ⟨h1, h2, h3⟩ := hn i List.mem_cons_self
    have e : p ++ (moreItems (i :: is) ++ ';' :: rest) =
        p ++ ',' :: (i.pre ++ (i.name ++ (i.post ++ (moreItems is ++ ';' :: rest)))) := by
      rw [moreItems]; simp [Item.text]
    have heat : eat ',' (p ++ ',' :: (i.pre ++ (i.name ++ (i.post ++ (moreItems is ++ ';' :: rest))))) =
        some (i.pre ++ (i.name ++ (i.post ++ (moreItems is ++ ';' :: rest)))) := eat_ws ',' p _ hp (by decide)
    have hf := fresh_name K hK i.pre i.name (i.post ++ (moreItems is ++ ';' :: rest)) h1 h2 (moreItems_head is _ _ h3)
    have hK' : ∀ k ∈ i.name :: K, ∀ c ∈ k, isNameChar c = true := by
      intro k hk
      rcases List.mem_cons.1 hk with rfl | hk
      · exact h2.2
      · exact hK k hk
    have hih := ih (i.name :: K) i.post rest h3 hK' (fun m hm => hn m (List.mem_cons_of_mem _ hm))
    have hlen : (i.post ++ (moreItems is ++ ';' :: rest)).length <
        (p ++ ',' :: (i.pre ++ (i.name ++ (i.post ++ (moreItems is ++ ';' :: rest))))).length := by
      simp only [List.length_append, List.length_cons]; omega
    rw [e, declLoop, heat]
    dsimp only
    rw [List.map_cons, allFresh_cons]
    by_cases hh : ∀ k ∈ K, ¬ k <+: i.name
    · rw [hf.1 hh]
      dsimp only
      rw [dif_pos hlen]
      constructor
      · intro h
        obtain ⟨q, hq, hd⟩ := hih.1 h.2
        exact ⟨q, hq, by rw [hd]⟩
      · intro h
        exact hih.2 fun h' => h ⟨hh, h'⟩
    · rw [hf.2 hh]
      constructor
      · intro h; exact absurd h.1 hh
      · intro _; exact ⟨p, _, hp, rfl⟩

theorem declare_items (K : List Name) (is : List Item) (rest : List Char) (hne : is ≠ [])
    (hK : ∀ k ∈ K, ∀ c ∈ k, isNameChar c = true) (hn : ItemsOk is) :
    (AllFresh K (is.map (·.name)) → B2.Parse.declare K (itemsText is ++ ';' :: rest) = some (is.map (·.name), rest)) ∧
    (¬ AllFresh K (is.map (·.name)) → B2.Parse.declare K (itemsText is ++ ';' :: rest) = none) := by
  cases is with
  | nil => exact absurd rfl hne
  | cons i is =>
    obtain ⟨h1, h2, h3⟩ := hn i List.mem_cons_self
    have e : itemsText (i :: is) ++ ';' :: rest = i.pre ++ (i.name ++ (i.post ++ (moreItems is ++ ';' :: rest))) := by
      rw [itemsText_cons]; simp [Item.text]
    have hf := fresh_name K hK i.pre i.name (i.post ++ (moreItems is ++ ';' :: rest)) h1 h2 (moreItems_head is _ _ h3)
    have hK' : ∀ k ∈ i.name :: K, ∀ c ∈ k, isNameChar c = true := by
      intro k hk
      rcases List.mem_cons.1 hk with rfl | hk
      · exact h2.2
      · exact hK k hk
    have hl := declLoop_items is (i.name :: K) i.post rest h3 hK' (fun m hm => hn m (List.mem_cons_of_mem _ hm))
    rw [e, List.map_cons, allFresh_cons]
    unfold B2.Parse.declare
    by_cases hh : ∀ k ∈ K, ¬ k <+: i.name
    · rw [hf.1 hh]
      dsimp only
      constructor
      · intro h
        obtain ⟨q, hq, hd⟩ := hl.1 h.2
        rw [hd]
        dsimp only
        rw [eat_ws ';' q rest hq (by decide)]
        rfl
      · intro h
        obtain ⟨q, u, hq, hd⟩ := hl.2 fun h' => h ⟨hh, h'⟩
        rw [hd, eat_none ';' ',' q u hq (by decide) (by decide)]
        rfl
    · rw [hf.2 hh]
      exact ⟨fun h => absurd h.1 hh, fun _ => rfl⟩

/-! ## Keywords -/

theorem kw_alpha (k : Kw) : ∃ c r, k.word = c :: r ∧ isAlpha c = true := by
  cases k <;> exact ⟨_, _, rfl, by decide⟩

theorem kw_name (k : Kw) : ∀ c ∈ k.word, isNameChar c = true := by
  cases k <;> decide

theorem kw_declarative (k : Kw) : k.word ∈ declarative := by
  cases k <;> decide

theorem skip_kw (w : List Char) (k : Kw) (s : List Char) (hw : Ws w) : skip (w ++ (k.word ++ s)) = k.word ++ s := by
  obtain ⟨c, r, h, hc⟩ := kw_alpha k
  rw [skip_ws w _ hw, h, List.cons_append, skip_cons c _ (alpha_facts c hc).1]

theorem firstKw_word (k : Kw) (s : List Char) (hs : s.head? ≠ some '_') : firstKw allKw (k.word ++ s) = some (k, s) := by
  cases k with
  | vars =>
    have h : eatStr "_group".toList s = none := by
      cases s with
      | nil => rfl
      | cons d s =>
        have : d ≠ '_' := by intro h; exact hs (by rw [h]; rfl)
        show eatStr ('_' :: _) (d :: s) = none
        rw [eatStr, if_neg this]
    have h1 : eatStr Kw.group.word (Kw.vars.word ++ s) = none := h
    have h2 : eatStr Kw.vars.word (Kw.vars.word ++ s) = some s := eatStr_append _ _
    have h3 : eatStr Kw.hom.word (Kw.vars.word ++ s) = none := rfl
    unfold allKw
    rw [firstKw, h1]
    dsimp only
    rw [firstKw, h3]
    dsimp only
    rw [firstKw, h2]
  | _ => rfl

theorem firstKw_none (ks : List Kw) (n r : List Char) (hn : ∀ k ∈ declarative, ¬ k <+: n)
    (hr : ∀ c, r.head? = some c → isNameChar c = false) : firstKw ks (n ++ r) = none := by
  induction ks with
  | nil => rfl
  | cons k ks ih =>
    have h : eatStr k.word (n ++ r) = none := by
      cases h : eatStr k.word (n ++ r) with
      | none => rfl
      | some t =>
        exfalso
        refine hn _ (kw_declarative k) ((prefix_name k.word n r (kw_name k) hr).1 ?_)
        exact ⟨t, (eatStr_eq _ _ _ h).symm⟩
    rw [firstKw, h]
    exact ih

theorem firstKw_some (ks : List Kw) (k : Kw) (s r : List Char) (h : firstKw ks s = some (k, r)) : s = k.word ++ r := by
  induction ks with
  | nil => cases h
  | cons k' ks ih =>
    rw [firstKw] at h
    cases he : eatStr k'.word s with
    | none => rw [he] at h; exact ih h
    | some t =>
      rw [he] at h
      simp only [Option.some.injEq, Prod.mk.injEq] at h
      obtain ⟨rfl, rfl⟩ := h
      exact eatStr_eq _ _ _ he

theorem items_head (is : List Item) (s : List Char) (hne : is ≠ []) (hn : ItemsOk is) :
    (itemsText is ++ s).head? ≠ some '_' := by
  cases is with
  | nil => exact absurd rfl hne
  | cons i is =>
    obtain ⟨h1, ⟨⟨c, r, hc, hca⟩, -⟩, -⟩ := hn i List.mem_cons_self
    rw [itemsText_cons, Item.text, hc]
    intro h
    cases hp : i.pre with
    | nil =>
      rw [hp] at h
      simp only [List.nil_append, List.cons_append, List.head?_cons, Option.some.injEq] at h
      rw [h] at hca
      exact absurd hca (by decide)
    | cons d p =>
      rw [hp] at h
      simp only [List.cons_append, List.head?_cons, Option.some.injEq] at h
      have := h1 d (by rw [hp]; exact List.mem_cons_self)
      rw [h] at this
      exact absurd this (by decide)

/-! ## Expressions -/

theorem body_text (T : Table) (hT : Good T) (mid txt post : List Char) (e : Node) (rest : List Char) (hm : Ws mid)
    (hp : Ws post) (h : Conv T false false 0 txt e) :
    body T (mid ++ '=' :: (txt ++ (post ++ ';' :: rest))) = some (e, rest) := by
  have hn : ∀ c, c ≠ ';' → NotNext c (post ++ ';' :: rest) := fun c hc =>
    eat_none c ';' post rest hp (by decide) (fun h => hc h.symm)
  have h1 : expr T (txt ++ (post ++ ';' :: rest)) = .ok e (post ++ ';' :: rest) :=
    accepts T hT false 0 txt e h _ (sep_op post ';' rest hp (by decide) (by decide) (by decide))
      (hn _ (by decide)) (hn _ (by decide)) (hn _ (by decide)) (hn _ (by decide)) (hn _ (by decide))
  unfold body
  rw [eat_ws '=' mid _ hm (by decide)]
  dsimp only
  rw [h1]
  dsimp only
  rw [eat_ws ';' post rest hp (by decide)]
  rfl

/-! ## The invariant of the parser -/

/-- Names are well-formed, not constants, not functions of the grammar; functions are known and do not start with a
keyword. -/
structure Inv (syms fns : List Name) : Prop where
  name : ∀ n ∈ syms, IsName n
  nofn : ∀ n ∈ syms, ∀ f : Fn, n ≠ f.name
  noconst : ∀ n ∈ syms, n ∉ B2.Parse.constants
  sub : ∀ n ∈ fns, n ∈ syms
  nokw : ∀ n ∈ fns, ∀ k ∈ declarative, ¬ k <+: n

theorem constTable_names : constTable.map (·.1) = B2.Parse.constants := rfl

theorem inv_known {syms fns : List Name} (h : Inv syms fns) : ∀ k ∈ known syms, ∀ c ∈ k, isNameChar c = true := by
  intro k hk
  rcases List.mem_append.1 hk with hk | hk
  · exact (h.name k hk).2
  · rcases List.mem_append.1 hk with hk | hk
    · exact (show ∀ k ∈ B2.Parse.constants, ∀ c ∈ k, isNameChar c = true by decide) k hk
    · exact (show ∀ k ∈ declarative, ∀ c ∈ k, isNameChar c = true by decide) k hk

theorem mem_table {addr : Name → ℕ} {syms : List Name} {k : Name} {n : Node} (h : (k, n) ∈ table addr syms) :
    (k ∈ syms ∧ n = .var (addr k)) ∨ (k ∈ B2.Parse.constants ∧ (k, n) ∈ constTable) := by
  rcases List.mem_append.1 h with h | h
  · obtain ⟨m, hm, he⟩ := List.mem_map.1 h
    simp only [Prod.mk.injEq] at he
    obtain ⟨rfl, rfl⟩ := he
    exact Or.inl ⟨hm, rfl⟩
  · refine Or.inr ⟨?_, h⟩
    rw [← constTable_names]
    exact List.mem_map.2 ⟨_, h, rfl⟩

theorem inv_good {syms fns : List Name} (addr : Name → ℕ) (h : Inv syms fns) : Good (table addr syms) := by
  constructor
  · intro k n hk
    rcases mem_table hk with ⟨h1, -⟩ | ⟨h1, -⟩
    · exact h.name k h1
    · simp only [B2.Parse.constants, List.mem_cons, List.not_mem_nil, or_false] at h1
      rcases h1 with rfl | rfl | rfl | rfl | rfl | rfl <;> exact ⟨⟨_, _, rfl, by decide⟩, by decide⟩
  · intro k n n' hk hk'
    rcases mem_table hk with ⟨h1, rfl⟩ | ⟨h1, h2⟩ <;> rcases mem_table hk' with ⟨h3, rfl⟩ | ⟨h3, h4⟩
    · rfl
    · exact absurd h3 (h.noconst k h1)
    · exact absurd h1 (h.noconst k h3)
    · simp only [constTable, List.mem_cons, List.not_mem_nil, or_false, Prod.mk.injEq] at h2 h4
      rcases h2 with ⟨rfl, rfl⟩ | ⟨rfl, rfl⟩ | ⟨rfl, rfl⟩ | ⟨rfl, rfl⟩ | ⟨rfl, rfl⟩ | ⟨rfl, rfl⟩ <;>
        rcases h4 with ⟨h5, rfl⟩ | ⟨h5, rfl⟩ | ⟨h5, rfl⟩ | ⟨h5, rfl⟩ | ⟨h5, rfl⟩ | ⟨h5, rfl⟩ <;>
        first | rfl | exact absurd h5 (by decide)
  · intro k n hk f
    rcases mem_table hk with ⟨h1, -⟩ | ⟨h1, -⟩
    · exact h.nofn k h1 f
    · simp only [B2.Parse.constants, List.mem_cons, List.not_mem_nil, or_false] at h1
      rcases h1 with rfl | rfl | rfl | rfl | rfl | rfl <;> cases f <;> decide

theorem prefix_refl' (n : List Char) : n <+: n := ⟨[], by simp⟩

theorem not_const_of_fresh {n : Name} {syms : List Name} (h : ∀ k ∈ known syms, ¬ k <+: n) : n ∉ B2.Parse.constants :=
  fun hc => h n (List.mem_append_right _ (List.mem_append_left _ hc)) (prefix_refl' n)

theorem inv_vars {syms fns : List Name} (h : Inv syms fns) (ns : List Name) (h1 : ∀ n ∈ ns, IsName n)
    (h2 : ∀ n ∈ ns, ∀ f : Fn, n ≠ f.name) (h3 : ∀ n ∈ ns, ∀ k ∈ known syms, ¬ k <+: n) : Inv (syms ++ ns) fns := by
  constructor
  · intro n hn; rcases List.mem_append.1 hn with hn | hn; exacts [h.name n hn, h1 n hn]
  · intro n hn; rcases List.mem_append.1 hn with hn | hn; exacts [h.nofn n hn, h2 n hn]
  · intro n hn; rcases List.mem_append.1 hn with hn | hn; exacts [h.noconst n hn, not_const_of_fresh (h3 n hn)]
  · intro n hn; exact List.mem_append_left _ (h.sub n hn)
  · exact h.nokw

theorem inv_fns {syms fns : List Name} (h : Inv syms fns) (ns : List Name) (h1 : ∀ n ∈ ns, IsName n)
    (h2 : ∀ n ∈ ns, ∀ f : Fn, n ≠ f.name) (h3 : ∀ n ∈ ns, ∀ k ∈ known syms, ¬ k <+: n) :
    Inv (syms ++ ns) (fns ++ ns) := by
  have h0 := inv_vars h ns h1 h2 h3
  refine ⟨h0.name, h0.nofn, h0.noconst, ?_, ?_⟩
  · intro n hn; rcases List.mem_append.1 hn with hn | hn
    exacts [List.mem_append_left _ (h.sub n hn), List.mem_append_right _ hn]
  · intro n hn k hk; rcases List.mem_append.1 hn with hn | hn
    · exact h.nokw n hn k hk
    · exact h3 n hn k (List.mem_append_right _ (List.mem_append_right _ hk))

/-- The state of the parser after a statement. -/
def after (addr : Name → ℕ) (st : St) : Stm → St
  | .decl _ k items => st.declare k (items.map (·.name))
  | .assign _ n _ _ e _ =>
    if n ∈ st.fns then { st with sys := st.sys.setRoot (addr n) e } else st.subfunction addr n e

theorem allFresh_append (K a b : List Name) : AllFresh K (a ++ b) ↔ AllFresh K a ∧ AllFresh (K ++ a) b := by
  unfold AllFresh
  rw [List.pairwise_append]
  constructor
  · rintro ⟨h1, h2, h3, h4⟩
    refine ⟨⟨fun n hn => h1 n (List.mem_append_left _ hn), h2⟩, fun n hn k hk => ?_, h3⟩
    rcases List.mem_append.1 hk with hk | hk
    · exact h1 n (List.mem_append_right _ hn) k hk
    · exact h4 k hk n hn
  · rintro ⟨⟨h1, h2⟩, h3, h4⟩
    refine ⟨fun n hn k hk => ?_, h2, h4, fun a ha b hb => h3 b hb a (List.mem_append_right _ ha)⟩
    rcases List.mem_append.1 hn with hn | hn
    · exact h1 n hn k hk
    · exact h3 n hn k (List.mem_append_left _ hk)

theorem allFresh_known (syms a b : List Name) : AllFresh (known syms ++ a) b ↔ AllFresh (known (syms ++ a)) b := by
  unfold AllFresh known
  have : ∀ k, k ∈ syms ++ (B2.Parse.constants ++ declarative) ++ a ↔ k ∈ syms ++ a ++ (B2.Parse.constants ++ declarative) := by
    intro k
    simp only [List.mem_append]
    tauto
  simp only [this]

/-- What remains of a name after a keyword, followed by an equality sign, is no declaration. -/
theorem fresh_eq (K : List Name) (hK : ∀ k ∈ K, ∀ c ∈ k, isNameChar c = true) (t mid u : List Char)
    (ht : ∀ c ∈ t, isNameChar c = true) (hm : Ws mid) :
    fresh K (t ++ (mid ++ '=' :: u)) = none ∨ fresh K (t ++ (mid ++ '=' :: u)) = some (t, mid ++ '=' :: u) := by
  have hh := head_ws mid '=' u hm (by decide)
  have hnone : ∀ s d r, skip s = d :: r → isAlpha d = false → fresh K s = none := by
    intro s d r hs hd
    unfold fresh
    dsimp only
    rw [hs]
    split_ifs
    · rfl
    · unfold validName
      rw [List.takeWhile_cons, hd]
      simp
  cases t with
  | nil =>
    left
    refine hnone _ '=' u ?_ (by decide)
    rw [List.nil_append, skip_ws mid _ hm, skip_cons '=' u (by decide)]
  | cons c t =>
    by_cases hc : isAlpha c = true
    · have hn : IsName (c :: t) := ⟨⟨c, t, rfl, hc⟩, ht⟩
      have hf := fresh_name K hK [] (c :: t) (mid ++ '=' :: u) ws_nil' hn hh
      rw [List.nil_append] at hf
      by_cases h : ∀ k ∈ K, ¬ k <+: c :: t
      · right; exact hf.1 h
      · left; exact hf.2 h
    · left
      have hsp : isSpace c = false := by
        by_contra hcon
        have h1 := space_notName c (by simpa using hcon)
        rw [ht c List.mem_cons_self] at h1
        cases h1
      refine hnone _ c (t ++ (mid ++ '=' :: u)) ?_ (by simpa using hc)
      rw [List.cons_append, skip_cons c _ hsp]

theorem declare_eq (K : List Name) (hK : ∀ k ∈ K, ∀ c ∈ k, isNameChar c = true) (t mid u : List Char)
    (ht : ∀ c ∈ t, isNameChar c = true) (hm : Ws mid) : B2.Parse.declare K (t ++ (mid ++ '=' :: u)) = none := by
  unfold B2.Parse.declare
  rcases fresh_eq K hK t mid u ht hm with h | h
  · rw [h]
  · rw [h]
    dsimp only
    rw [declLoop, eat_none ',' '=' mid u hm (by decide) (by decide)]
    dsimp only
    rw [eat_none ';' '=' mid u hm (by decide) (by decide)]
    rfl

theorem longestFn_some {fns : List Name} {s k : List Char} (h : longestFn fns s = some k) :
    k ∈ fns ∧ k <+: s ∧ ∀ k' ∈ fns, k' <+: s → k'.length ≤ k.length := by
  unfold longestFn at h
  obtain ⟨⟨k0, n0⟩, h1, h2⟩ := Option.map_eq_some_iff.1 h
  dsimp only at h2
  subst h2
  obtain ⟨a1, a2, a3⟩ := longest_some _ _ _ _ h1
  obtain ⟨m, hm, he⟩ := List.mem_map.1 a1
  simp only [Prod.mk.injEq] at he
  refine ⟨by rw [← he.1]; exact hm, (eatStr_prefix _ _).1 a2, fun k' hk' hp => ?_⟩
  exact a3 k' (.int 0) (List.mem_map.2 ⟨k', hk', rfl⟩) ((eatStr_prefix _ _).2 hp)

theorem longestFn_none {fns : List Name} {s : List Char} (h : longestFn fns s = none) : ∀ k ∈ fns, ¬ k <+: s := by
  intro k hk hp
  unfold longestFn at h
  rw [Option.map_eq_none_iff] at h
  have : ∀ (l : List Name), k ∈ l → longest (l.map fun n => (n, Node.int 0)) s ≠ none := by
    intro l
    induction l with
    | nil => intro h; cases h
    | cons m l ih =>
      intro hm
      rw [List.map_cons, longest]
      split_ifs with h0
      · split
        · split_ifs <;> simp
        · simp
      · rcases List.mem_cons.1 hm with rfl | hm
        · exact absurd ((eatStr_prefix _ _).2 hp) h0
        · exact ih hm
  exact this fns hk h

/-- One statement of a file: read, if its new names are new; else the whole parse fails. -/
theorem stmt_text (addr : Name → ℕ) (st : St) (s : Stm) (F : List Stm) (rest : List Char) (hi : Inv st.syms st.fns)
    (hs : Syntax addr false st.syms st.fns (s :: F)) :
    (AllFresh (known st.syms) (intro st.fns [s]) →
      stmt addr st (s.text ++ rest) = .next (after addr st s) rest ∧ Inv (after addr st s).syms (after addr st s).fns) ∧
    (¬ AllFresh (known st.syms) (intro st.fns [s]) → ∀ st' r, stmt addr st (s.text ++ rest) ≠ .next st' r) := by
  have hK := inv_known hi
  cases s with
  | decl pre k items =>
    obtain ⟨h1, h2, h3, h4, -⟩ := hs
    have hit : ItemsOk items := fun i hm => ⟨(h4 i hm).1, (h4 i hm).2.1, (h4 i hm).2.2.1⟩
    have e : (Stm.decl pre k items).text ++ rest = pre ++ (k.word ++ (itemsText items ++ ';' :: rest)) := by
      simp [Stm.text]
    have hkw : firstKw allKw (skip (pre ++ (k.word ++ (itemsText items ++ ';' :: rest)))) =
        some (k, itemsText items ++ ';' :: rest) := by
      rw [skip_kw pre k _ h1, firstKw_word k _ (items_head items _ h2 hit)]
    have hint : intro st.fns [.decl pre k items] = items.map (·.name) := by simp [intro]
    have hd := declare_items (known st.syms) items rest h2 hK hit
    rw [hint, e]
    have hinv : AllFresh (known st.syms) (items.map (·.name)) →
        Inv (after addr st (.decl pre k items)).syms (after addr st (.decl pre k items)).fns := by
      intro hf
      have a1 : ∀ n ∈ items.map (·.name), IsName n := by
        intro n hn; obtain ⟨i, hm, rfl⟩ := List.mem_map.1 hn; exact (h4 i hm).2.1
      have a2 : ∀ n ∈ items.map (·.name), ∀ f : Fn, n ≠ f.name := by
        intro n hn; obtain ⟨i, hm, rfl⟩ := List.mem_map.1 hn; exact (h4 i hm).2.2.2
      show Inv (st.syms ++ items.map (·.name)) (if k.isFn then st.fns ++ items.map (·.name) else st.fns)
      split_ifs
      · exact inv_fns hi _ a1 a2 hf.1
      · exact inv_vars hi _ a1 a2 hf.1
    by_cases hp : k = .path
    · subst hp
      obtain ⟨i, rfl⟩ := List.length_eq_one_iff.1 (h3 rfl)
      obtain ⟨b1, b2, b3⟩ := hit i List.mem_cons_self
      have e2 : itemsText [i] ++ ';' :: rest = i.pre ++ (i.name ++ (i.post ++ ';' :: rest)) := by
        simp [itemsText, Item.text]
      have hf := fresh_name (known st.syms) hK i.pre i.name (i.post ++ ';' :: rest) b1 b2 (head_ws _ _ _ b3 (by decide))
      rw [e2] at hkw
      have hone : AllFresh (known st.syms) ([i].map (·.name)) ↔ ∀ k ∈ known st.syms, ¬ k <+: i.name := by
        rw [List.map_cons, allFresh_cons]
        exact ⟨fun h => h.1, fun h => ⟨h, allFresh_nil _⟩⟩
      constructor
      · intro h
        refine ⟨?_, hinv h⟩
        unfold stmt
        rw [e2, hkw]
        dsimp only
        rw [hf.1 (hone.1 h)]
        dsimp only
        rw [eat_ws ';' _ rest b3 (by decide)]
        rfl
      · intro h st' r
        unfold stmt
        rw [e2, hkw]
        dsimp only
        rw [hf.2 fun h' => h (hone.2 h')]
        simp
    · have hst : stmt addr st (pre ++ (k.word ++ (itemsText items ++ ';' :: rest))) =
          match B2.Parse.declare (known st.syms) (itemsText items ++ ';' :: rest) with
          | none => .bad
          | some (ns, r1) => .next (st.declare k ns) r1 := by
        unfold stmt
        rw [hkw]
        cases k <;> first | rfl | exact absurd rfl hp
      rw [hst]
      constructor
      · intro h
        rw [hd.1 h]
        exact ⟨rfl, hinv h⟩
      · intro h st' r
        rw [hd.2 h]
        simp
  | assign pre n mid txt ex post =>
    obtain ⟨h1, h2, h3, h4, h5, h6, -⟩ := hs
    have e : (Stm.assign pre n mid txt ex post).text ++ rest =
        pre ++ (n ++ (mid ++ '=' :: (txt ++ (post ++ ';' :: rest)))) := by
      simp [Stm.text]
    have hh := head_ws mid '=' (txt ++ (post ++ ';' :: rest)) h4 (by decide)
    have hskip : skip (pre ++ (n ++ (mid ++ '=' :: (txt ++ (post ++ ';' :: rest))))) =
        n ++ (mid ++ '=' :: (txt ++ (post ++ ';' :: rest))) := by
      rw [skip_ws pre _ h1, name_skip n _ h2]
    have hf := fresh_name (known st.syms) hK pre n _ h1 h2 hh
    rw [e]
    by_cases hfn : n ∈ st.fns
    · rw [if_pos hfn] at h6
      have hint : intro st.fns [.assign pre n mid txt ex post] = [] := by simp [intro, hfn]
      rw [hint]
      refine ⟨fun _ => ?_, fun h => absurd (allFresh_nil _) h⟩
      have hkw := firstKw_none allKw n _ (hi.nokw n hfn) hh
      have hnf : fresh (known st.syms) (pre ++ (n ++ (mid ++ '=' :: (txt ++ (post ++ ';' :: rest))))) = none :=
        hf.2 fun h => h n (List.mem_append_left _ (hi.sub n hfn)) (prefix_refl' n)
      have hl : longestFn st.fns (n ++ (mid ++ '=' :: (txt ++ (post ++ ';' :: rest)))) = some n := by
        cases hl : longestFn st.fns (n ++ (mid ++ '=' :: (txt ++ (post ++ ';' :: rest)))) with
        | none => exact absurd ⟨_, rfl⟩ (longestFn_none hl n hfn)
        | some k =>
          obtain ⟨c1, c2, c3⟩ := longestFn_some hl
          have c4 := (prefix_name k n _ (hi.name k (hi.sub k c1)).2 hh).1 c2
          have c5 := c3 n hfn ⟨_, rfl⟩
          rw [c4.eq_of_length (le_antisymm c4.length_le c5)]
      have hdrop : (n ++ (mid ++ '=' :: (txt ++ (post ++ ';' :: rest)))).drop n.length =
          mid ++ '=' :: (txt ++ (post ++ ';' :: rest)) := by simp
      constructor
      · unfold stmt
        rw [hskip, hkw]
        dsimp only
        rw [hnf]
        dsimp only
        rw [hl]
        dsimp only
        rw [hdrop, body_text _ (inv_good addr hi) mid txt post ex rest h4 h5 h6]
        simp only [after, if_pos hfn]
      · simp only [after, if_pos hfn]
        exact hi
    · rw [if_neg hfn] at h6
      have hint : intro st.fns [.assign pre n mid txt ex post] = [n] := by simp [intro, hfn]
      have hone : AllFresh (known st.syms) [n] ↔ ∀ k ∈ known st.syms, ¬ k <+: n := by
        rw [allFresh_cons]
        exact ⟨fun h => h.1, fun h => ⟨h, allFresh_nil _⟩⟩
      rw [hint, hone]
      constructor
      · intro h
        have hkw := firstKw_none allKw n _
          (fun k hk => h k (List.mem_append_right _ (List.mem_append_right _ hk))) hh
        have hinv : Inv (st.syms ++ [n]) (st.fns ++ [n]) := by
          refine inv_fns hi [n] ?_ ?_ ?_ <;> intro m hm <;> rw [List.mem_singleton.1 hm]
          exacts [h2, h3, h]
        constructor
        · unfold stmt
          rw [hskip, hkw]
          dsimp only
          rw [hf.1 h]
          dsimp only
          rw [body_text _ (inv_good addr hinv) mid txt post ex rest h4 h5 h6]
          simp only [after, if_neg hfn]
        · simp only [after, if_neg hfn]
          exact hinv
      · intro h st' r
        unfold stmt
        rw [hskip]
        cases hkw : firstKw allKw (n ++ (mid ++ '=' :: (txt ++ (post ++ ';' :: rest)))) with
        | some p =>
          obtain ⟨k, t⟩ := p
          have hk := firstKw_some _ _ _ _ hkw
          have hpre : k.word <+: n := (prefix_name k.word n _ (kw_name k) hh).1 ⟨t, hk.symm⟩
          obtain ⟨t', ht'⟩ := hpre
          have htt : t = t' ++ (mid ++ '=' :: (txt ++ (post ++ ';' :: rest))) := by
            rw [← ht', List.append_assoc] at hk
            exact (List.append_cancel_left hk).symm
          have htn : ∀ c ∈ t', isNameChar c = true := fun c hc => h2.2 c (by rw [← ht']; exact List.mem_append_right _ hc)
          have hd := declare_eq (known st.syms) hK t' mid (txt ++ (post ++ ';' :: rest)) htn h4
          have hfr := fresh_eq (known st.syms) hK t' mid (txt ++ (post ++ ';' :: rest)) htn h4
          rw [← htt] at hd hfr
          cases k with
          | path =>
            dsimp only
            rcases hfr with hfr | hfr
            · rw [hfr]; simp
            · rw [hfr]
              dsimp only
              rw [eat_none ';' '=' mid _ h4 (by decide) (by decide)]
              simp
          | _ =>
            dsimp only
            rw [hd]
            simp
        | none =>
          dsimp only
          rw [hf.2 h]
          dsimp only
          cases hl : longestFn st.fns (n ++ (mid ++ '=' :: (txt ++ (post ++ ';' :: rest)))) with
          | none => simp
          | some k =>
            dsimp only
            obtain ⟨c1, c2, c3⟩ := longestFn_some hl
            obtain ⟨t, ht⟩ := (prefix_name k n _ (hi.name k (hi.sub k c1)).2 hh).1 c2
            cases t with
            | nil =>
              rw [List.append_nil] at ht
              rw [ht] at c1
              exact absurd c1 hfn
            | cons d t =>
              have hdrop : (n ++ (mid ++ '=' :: (txt ++ (post ++ ';' :: rest)))).drop k.length =
                  d :: (t ++ (mid ++ '=' :: (txt ++ (post ++ ';' :: rest)))) := by
                rw [← ht]; simp
              have hdn : isNameChar d = true := h2.2 d (by rw [← ht]; simp)
              have hds : isSpace d = false := by
                by_contra hcon
                rw [space_notName d (by simpa using hcon)] at hdn
                cases hdn
              have hde : d ≠ '=' := by intro hd; rw [hd] at hdn; exact absurd hdn (by decide)
              have hb : body (table addr st.syms) (d :: (t ++ (mid ++ '=' :: (txt ++ (post ++ ';' :: rest))))) = none := by
                unfold body
                have := eat_none '=' d [] (t ++ (mid ++ '=' :: (txt ++ (post ++ ';' :: rest)))) ws_nil' hds hde
                rw [List.nil_append] at this
                rw [this]
              rw [hdrop, hb]
              simp

theorem text_ne (s : Stm) (rest : List Char) : skip (s.text ++ rest) ≠ [] := by
  have h : ∀ (l : List Char) (c : Char), c ∈ l → isSpace c = false → skip l ≠ [] := by
    intro l c hc hs
    induction l with
    | nil => cases hc
    | cons d l ih =>
      unfold skip
      rw [List.dropWhile_cons]
      split_ifs with hd
      · rcases List.mem_cons.1 hc with rfl | hc
        · rw [hs] at hd; cases hd
        · exact ih hc
      · simp
  refine h _ ';' ?_ (by decide)
  cases s <;> simp [Stm.text]

theorem text_pos (s : Stm) : 0 < s.text.length := by
  cases s <;> simp [Stm.text] <;> omega

theorem intro_cons (addr : Name → ℕ) (st : St) (s : Stm) (F : List Stm) :
    intro st.fns (s :: F) = intro st.fns [s] ++ intro (after addr st s).fns F := by
  cases s with
  | decl pre k items => simp [intro, after, St.declare]
  | assign pre n mid txt ex post =>
    by_cases h : n ∈ st.fns <;> simp [intro, after, h, St.subfunction]

theorem after_syms (addr : Name → ℕ) (st : St) (s : Stm) : (after addr st s).syms = st.syms ++ intro st.fns [s] := by
  cases s with
  | decl pre k items => simp [intro, after, St.declare]
  | assign pre n mid txt ex post =>
    by_cases h : n ∈ st.fns <;> simp [intro, after, h, St.subfunction]

theorem syntax_after (addr : Name → ℕ) (full : Bool) (st : St) (s : Stm) (F : List Stm)
    (h : Syntax addr full st.syms st.fns (s :: F)) :
    Syntax addr full (after addr st s).syms (after addr st s).fns F := by
  cases s with
  | decl pre k items => exact h.2.2.2.2
  | assign pre n mid txt ex post =>
    have h' := h.2.2.2.2.2.2
    by_cases hn : n ∈ st.fns
    · simp only [if_pos hn] at h'
      simp only [after, if_pos hn]
      exact h'
    · simp only [if_neg hn] at h'
      simp only [after, if_neg hn]
      exact h'

theorem run_blank (addr : Name → ℕ) (st : St) (w : List Char) (hi : Inv st.syms st.fns) (hw : Ws w) : run addr st w = some st := by
  have hs := skip_all w hw
  have hst : stmt addr st w = .stop := by
    unfold stmt
    rw [hs]
    have h1 : firstKw allKw [] = none := rfl
    rw [h1]
    dsimp only
    have h2 : fresh (known st.syms) w = none := by
      unfold fresh
      dsimp only
      rw [hs]
      split_ifs <;> rfl
    rw [h2]
    dsimp only
    cases hl : longestFn st.fns [] with
    | none => rfl
    | some k =>
      exfalso
      obtain ⟨c1, c2, -⟩ := longestFn_some hl
      obtain ⟨⟨c, r, hc, -⟩, -⟩ := hi.name k (hi.sub k c1)
      rw [hc] at c2
      exact absurd c2.length_le (by simp)
  rw [run, hst]
  dsimp only
  rw [if_pos hs]

/-- The whole file. -/
theorem run_text (addr : Name → ℕ) (F : List Stm) (w : List Char) (hw : Ws w) : ∀ st : St, Inv st.syms st.fns →
    Syntax addr false st.syms st.fns F →
    (AllFresh (known st.syms) (intro st.fns F) → run addr st (fileText F w) = some (F.foldl (after addr) st)) ∧
    (¬ AllFresh (known st.syms) (intro st.fns F) → run addr st (fileText F w) = none) := by
  induction F with
  | nil =>
    intro st hi _
    exact ⟨fun _ => run_blank addr st w hi hw, fun h => absurd (allFresh_nil _) h⟩
  | cons s F ih =>
    intro st hi hs
    have h := stmt_text addr st s F (fileText F w) hi hs
    rw [intro_cons addr, allFresh_append, allFresh_known, ← after_syms addr]
    have hlen : (fileText F w).length < (s.text ++ fileText F w).length := by
      have := text_pos s
      rw [List.length_append]; omega
    by_cases h1 : AllFresh (known st.syms) (intro st.fns [s])
    · obtain ⟨h2, h3⟩ := h.1 h1
      have hr : run addr st (fileText (s :: F) w) = run addr (after addr st s) (fileText F w) := by
        rw [fileText, run, h2]
        dsimp only
        rw [dif_pos hlen]
      have h4 := ih (after addr st s) h3 (syntax_after addr false st s F hs)
      rw [hr]
      exact ⟨fun hh => h4.1 hh.2, fun hh => h4.2 fun h5 => hh ⟨h1, h5⟩⟩
    · refine ⟨fun hh => absurd hh.1 h1, fun _ => ?_⟩
      have h2 := h.2 h1
      rw [fileText, run]
      cases hst : stmt addr st (s.text ++ fileText F w) with
      | bad => rfl
      | stop => dsimp only; rw [if_neg (text_ne s _)]
      | next st' r => exact absurd hst (h2 st' r)

theorem inv_init : Inv St.init.syms St.init.fns :=
  ⟨fun _ h => (by cases h), fun _ h => (by cases h), fun _ h => (by cases h), fun _ h => (by cases h),
    fun _ h => (by cases h)⟩

/-! ## The description of a file -/

/-- `S'` is `S` with what the statements add. -/
structure Adds (addr : Name → ℕ) (fns : List Name) (F : List Stm) (S S' : Sys) : Prop where
  groups : S'.groups = S.groups ++ declared .group F
  homGroups : S'.homGroups = S.homGroups ++ declared .hom F
  ungrouped : S'.ungrouped = S.ungrouped ++ (declared .vars F).flatten
  timeOrder : S'.timeOrder = S.timeOrder ++ order F
  functions : S'.functions = S.functions ++ (declared .funcs F).flatten
  constants : S'.constants = S.constants ++ (declared .consts F).flatten
  parameters : S'.parameters = S.parameters ++ (declared .params F).flatten
  implicitParams : S'.implicitParams = S.implicitParams ++ (declared .implicit F).flatten
  pathVar : S'.pathVar = (declared .path F).flatten.getLast?.or S.pathVar
  subs : S'.subs = S.subs ++ introSubs fns F
  root : ∀ n, S'.root (addr n) = (assigned n F).getLast?.or (S.root (addr n))

theorem adds_nil (addr : Name → ℕ) (fns : List Name) (S : Sys) : Adds addr fns [] S S := by
  constructor <;> simp [declared, order, introSubs, assigned]

theorem adds_fold (addr : Name → ℕ) (ha : Function.Injective addr) (F : List Stm) : ∀ st : St,
    (∀ pre k items, Stm.decl pre k items ∈ F → items ≠ []) →
    Adds addr st.fns F st.sys (F.foldl (after addr) st).sys := by
  induction F with
  | nil => intro st _; exact adds_nil addr _ _
  | cons s F ih =>
    intro st hne
    have h := ih (after addr st s) fun pre k items hm => hne pre k items (List.mem_cons_of_mem _ hm)
    rw [List.foldl_cons]
    generalize (F.foldl (after addr) (after addr st s)).sys = S' at h ⊢
    cases s with
    | decl pre k items =>
      have hi := hne pre k items List.mem_cons_self
      have hl : ∃ x, (items.map (·.name)).getLast? = some x := by
        cases hx : (items.map (·.name)).getLast? with
        | none => rw [List.getLast?_eq_none_iff, List.map_eq_nil_iff] at hx; exact absurd hx hi
        | some x => exact ⟨x, rfl⟩
      obtain ⟨x, hx⟩ := hl
      obtain ⟨h1, h2, h3, h4, h5, h6, h7, h8, h9, h10, h11⟩ := h
      have hp : ((declared .path (.decl pre .path items :: F)).flatten.getLast?).or st.sys.pathVar =
          (declared .path F).flatten.getLast?.or (items.map (·.name)).getLast? := by
        have : declared .path (.decl pre .path items :: F) = items.map (·.name) :: declared .path F := by
          simp [declared]
        rw [this, List.flatten_cons, List.getLast?_append, Option.or_assoc, hx]
        rfl
      cases k <;> refine ⟨?_, ?_, ?_, ?_, ?_, ?_, ?_, ?_, ?_, ?_, ?_⟩ <;>
        first
        | exact h9.trans hp.symm
        | simp [h1, h2, h3, h4, h5, h6, h7, h8, h9, h10, h11, after, St.declare, Sys.declare, declared, order, introSubs,
            assigned, Kw.isFn, Function.comp_def, List.map_const']
    | assign pre n mid txt ex post =>
      obtain ⟨h1, h2, h3, h4, h5, h6, h7, h8, h9, h10, h11⟩ := h
      have hr : ∀ m, (assigned m (.assign pre n mid txt ex post :: F)).getLast?.or (st.sys.root (addr m)) =
          (assigned m F).getLast?.or (Function.update st.sys.root (addr n) (some ex) (addr m)) := by
        intro m
        by_cases hm : n = m
        · have : assigned m (.assign pre n mid txt ex post :: F) = ex :: assigned m F := by simp [assigned, hm]
          rw [this, ← List.singleton_append, List.getLast?_append, Option.or_assoc, hm, Function.update_self]
          rfl
        · have : assigned m (.assign pre n mid txt ex post :: F) = assigned m F := by simp [assigned, hm]
          rw [this, Function.update_of_ne fun h => hm (ha h).symm]
      by_cases hn : n ∈ st.fns
      · have hroot : (after addr st (.assign pre n mid txt ex post)).sys.root =
            Function.update st.sys.root (addr n) (some ex) := by simp [after, hn, Sys.setRoot]
        rw [hroot] at h11
        refine ⟨?_, ?_, ?_, ?_, ?_, ?_, ?_, ?_, ?_, ?_, fun m => (h11 m).trans (hr m).symm⟩ <;>
        simp [h1, h2, h3, h4, h5, h6, h7, h8, h9, h10, after, Sys.setRoot, declared, order, introSubs, hn]
      · have hroot : (after addr st (.assign pre n mid txt ex post)).sys.root =
            Function.update st.sys.root (addr n) (some ex) := by simp [after, hn, St.subfunction, Sys.setRoot]
        rw [hroot] at h11
        refine ⟨?_, ?_, ?_, ?_, ?_, ?_, ?_, ?_, ?_, ?_, fun m => (h11 m).trans (hr m).symm⟩ <;>
        simp [h1, h2, h3, h4, h5, h6, h7, h8, h9, h10, after, Sys.setRoot, St.subfunction, declared, order, introSubs, hn]

/-- The system read is the one described. -/
theorem describes_fold (addr : Name → ℕ) (ha : Function.Injective addr) (F : List Stm)
    (hs : Syntax addr false [] [] F) : Describes addr F (F.foldl (after addr) St.init).sys := by
  have hne : ∀ pre k items, Stm.decl pre k items ∈ F → items ≠ [] := by
    have : ∀ (F : List Stm) (syms fns : List Name), Syntax addr false syms fns F →
        ∀ pre k items, Stm.decl pre k items ∈ F → items ≠ [] := by
      intro F
      induction F with
      | nil => intro _ _ _ pre k items hm; cases hm
      | cons s F ih =>
        intro syms fns hs pre k items hm
        cases s with
        | decl pre' k' items' =>
          rcases List.mem_cons.1 hm with he | hm
          · injection he with _ _ h3
            rw [h3]; exact hs.2.1
          · exact ih _ _ hs.2.2.2.2 pre k items hm
        | assign pre' n' mid' txt' e' post' =>
          rcases List.mem_cons.1 hm with he | hm
          · cases he
          · exact ih _ _ hs.2.2.2.2.2.2 pre k items hm
    exact this F [] [] hs
  obtain ⟨h1, h2, h3, h4, h5, h6, h7, h8, h9, h10, h11⟩ := adds_fold addr ha F St.init hne
  refine ⟨h1, h2, h3, h4, h5, h6, h7, h8, ?_, h10, fun n => ?_⟩
  · rw [h9]; simp [St.init, Sys.empty]
  · rw [h11 n]; simp [St.init, Sys.empty]

end B2.Parse.SysFile
