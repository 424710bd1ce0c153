import Verif.Tree.Precision

/-!
# C130-C132: precision of systems
-/

namespace B2.Tree.Prec

variable {W : Type}

/-! ### Lemmas -/

theorem value_var {G : Graph W} {p : ℕ} {x : ℕ → W} {i : ℕ} (h : G.cell i = .var) :
    value G p x i = x i := by
  rw [value]; split <;> simp_all

theorem value_num {G : Graph W} {p : ℕ} {x : ℕ → W} {i : ℕ} {c} (h : G.cell i = .num c) :
    value G p x i = c p := by
  rw [value]; split <;> simp_all

theorem value_op {G : Graph W} {p : ℕ} {x : ℕ → W} {i : ℕ} {f os} (h : G.cell i = .op f os) :
    value G p x i = f p (os.map (value G p x)) := by
  rw [value]; split <;> simp_all

theorem value_handle {G : Graph W} {p : ℕ} {x : ℕ → W} {i : ℕ} {e} (h : G.cell i = .handle e) :
    value G p x i = value G p x e := by
  rw [value]; split <;> simp_all

theorem value_lin {G : Graph W} {p : ℕ} {x : ℕ → W} {i : ℕ} {f r c vs e}
    (h : G.cell i = .lin f r c vs e) :
    value G p x i = f p (c.map (fun c => c p) ++ (vs ++ [e]).map (value G p x)) := by
  rw [value]; split <;> simp_all

theorem Below.trans {G : Graph W} {i j k : ℕ} (h : Below G i j) (h' : Below G j k) : Below G i k := by
  induction h with
  | refl => exact h'
  | step hm _ ih => exact .step hm (ih h')

theorem Below.leaf {G : Graph W} {i j : ℕ} (hk : (G.cell i).kids = []) (h : Below G i j) : j = i := by
  cases h with
  | refl => rfl
  | step hm _ => rw [hk] at hm; cases hm

theorem Below.cases' {G : Graph W} {i j : ℕ} (h : Below G i j) :
    j = i ∨ ∃ k ∈ (G.cell i).kids, Below G k j := by
  cases h with
  | refl => exact .inl rfl
  | step hm hk => exact .inr ⟨_, hm, hk⟩

/-- The node is not a linear product. -/
def Cell.Plain : Cell W → Prop
  | .lin .. => False
  | _ => True

/-- The state of the node agrees with precision `p`: a function has that precision, a number is to be
computed or was computed at that precision. -/
def OK (G : Graph W) (p : ℕ) (s : St W) (i : ℕ) : Prop :=
  match G.cell i with
  | .num c => s.flag i = false ∨ s.val i = (c p, p)
  | .handle _ => (s.val i).2 = p
  | _ => True

theorem OK.num {G : Graph W} {p : ℕ} {s : St W} {i : ℕ} {c} (h : G.cell i = .num c) :
    OK G p s i ↔ (s.flag i = false ∨ s.val i = (c p, p)) := by
  unfold OK; rw [h]

theorem OK.handle {G : Graph W} {p : ℕ} {s : St W} {i : ℕ} {e} (h : G.cell i = .handle e) :
    OK G p s i ↔ (s.val i).2 = p := by
  unfold OK; rw [h]

theorem OK.congr {G : Graph W} {p : ℕ} {s s' : St W} {i : ℕ} (hv : s'.val i = s.val i)
    (hf : s'.flag i = s.flag i) : OK G p s' i ↔ OK G p s i := by
  unfold OK; rw [hv, hf]

/-- Changing only the node `i`, which is neither a number nor a function. -/
theorem OK.put_other {G : Graph W} {p : ℕ} {s : St W} {i j : ℕ} {x : MP W}
    (hn : ∀ c, G.cell i ≠ .num c) (hh : ∀ e, G.cell i ≠ .handle e) (h : OK G p s j) :
    OK G p (s.put i x) j := by
  by_cases hj : j = i
  · subst hj
    unfold OK
    cases hc : G.cell j with
    | num c => exact absurd hc (hn c)
    | handle e => exact absurd hc (hh e)
    | _ => trivial
  · exact (OK.congr (by simp [St.put, hj]) (by simp [St.put])).2 h

theorem prec_frame (G : Graph W) (R : ℕ → W → W) (p : ℕ) : ∀ (n i : ℕ) (s : St W),
    (precF G R p n i s).dflt = s.dflt ∧
    ∀ j, ¬ Below G i j →
      (precF G R p n i s).val j = s.val j ∧ (precF G R p n i s).flag j = s.flag j := by
  intro n
  induction n with
  | zero => intro i s; exact ⟨rfl, fun j _ => ⟨rfl, rfl⟩⟩
  | succ n ih =>
    have hl : ∀ (l : List ℕ) (s : St W),
        (l.foldl (fun s j => precF G R p n j s) s).dflt = s.dflt ∧
        ∀ j, (∀ k ∈ l, ¬ Below G k j) →
          (l.foldl (fun s j => precF G R p n j s) s).val j = s.val j ∧
          (l.foldl (fun s j => precF G R p n j s) s).flag j = s.flag j := by
      intro l
      induction l with
      | nil => intro s; exact ⟨rfl, fun j _ => ⟨rfl, rfl⟩⟩
      | cons k l ihl =>
        intro s
        have h1 := ih k s
        have h2 := ihl (precF G R p n k s)
        refine ⟨h2.1.trans h1.1, fun j hj => ?_⟩
        have a := h2.2 j fun k' hk' => hj k' (by simp [hk'])
        have b := h1.2 j (hj k (by simp))
        exact ⟨a.1.trans b.1, a.2.trans b.2⟩
    intro i s
    have hne : ∀ j, ¬ Below G i j → j ≠ i := fun j hj e => hj (e ▸ .refl _)
    have hset : ∀ j, ¬ Below G i j → (s.setPrec R p i).val j = s.val j := by
      intro j hj; simp [St.setPrec, St.put, hne j hj]
    cases hc : G.cell i with
    | var =>
      simp only [precF, hc]
      exact ⟨rfl, fun j hj => ⟨hset j hj, rfl⟩⟩
    | num c =>
      simp only [precF, hc]
      exact ⟨rfl, fun j hj => ⟨hset j hj, by simp [St.mark, St.setPrec, St.put, hne j hj]⟩⟩
    | op f os =>
      simp only [precF, hc]
      have h := hl os (s.setPrec R p i)
      refine ⟨h.1, fun j hj => ?_⟩
      have h2 := h.2 j fun k hk hb => hj (.step (by rw [hc]; exact hk) hb)
      exact ⟨h2.1.trans (hset j hj), h2.2⟩
    | lin f r c vs e =>
      simp only [precF, hc]
      have h := hl vs { s.setPrec R p i with bad := (s.setPrec R p i).bad || (!r && !c.isEmpty) }
      refine ⟨h.1, fun j hj => ?_⟩
      have h2 := h.2 j fun k hk hb => hj (.step (by rw [hc]; simp [Cell.kids, hk]) hb)
      exact ⟨h2.1.trans (hset j hj), h2.2⟩
    | handle e =>
      simp only [precF, hc]
      by_cases hp : (s.val i).2 = p
      · rw [if_pos hp]; exact ⟨rfl, fun j _ => ⟨rfl, rfl⟩⟩
      · rw [if_neg hp]
        have h := ih e (s.setPrec R p i)
        refine ⟨h.1, fun j hj => ?_⟩
        have h2 := h.2 j fun hb => hj (.step (by rw [hc]; simp [Cell.kids]) hb)
        exact ⟨h2.1.trans (hset j hj), h2.2⟩

theorem foldl_mono {α : Type} {P : St W → Prop} {g : St W → α → St W}
    (h : ∀ s a, P s → P (g s a)) (l : List α) (s : St W) (hs : P s) : P (l.foldl g s) := by
  induction l generalizing s with
  | nil => exact hs
  | cons a l ih => exact ih _ (h s a hs)

theorem prec_mono (G : Graph W) (R : ℕ → W → W) (p : ℕ) (m : ℕ) : ∀ (n i : ℕ) (s : St W),
    OK G p s m → OK G p (precF G R p n i s) m := by
  intro n
  induction n with
  | zero => intro i s h; exact h
  | succ n ih =>
    intro i s h
    cases hc : G.cell i with
    | var =>
      simp only [precF, hc]
      exact h.put_other (by simp [hc]) (by simp [hc])
    | num c =>
      simp only [precF, hc]
      by_cases hm : m = i
      · subst hm
        exact (OK.num hc).2 (.inl (by simp [St.mark]))
      · exact (OK.congr (by simp [St.mark, St.setPrec, St.put, hm])
          (by simp [St.mark, St.setPrec, St.put, hm])).2 h
    | op f os =>
      simp only [precF, hc]
      exact foldl_mono (fun s j hs => ih j s hs) os _ (h.put_other (by simp [hc]) (by simp [hc]))
    | lin f r c vs e =>
      simp only [precF, hc]
      refine foldl_mono (fun s j hs => ih j s hs) vs _ ?_
      exact (OK.congr rfl rfl).2 (h.put_other (x := (R p (s.val i).1, p)) (by simp [hc]) (by simp [hc]))
    | handle e =>
      simp only [precF, hc]
      by_cases hp : (s.val i).2 = p
      · rw [if_pos hp]; exact h
      · rw [if_neg hp]
        refine ih e _ ?_
        by_cases hm : m = i
        · subst hm
          exact (OK.handle hc).2 (by simp [St.setPrec, St.put])
        · exact (OK.congr (by simp [St.setPrec, St.put, hm]) (by simp [St.setPrec, St.put])).2 h

/-- No function below `i` has precision `p` while something below it has not. -/
def Honest (G : Graph W) (p : ℕ) (s : St W) (i : ℕ) : Prop :=
  ∀ h e, Below G i h → G.cell h = .handle e → (s.val h).2 = p → ∀ m, Below G h m → OK G p s m

/-- Handles that get precision `p` in between are below a node already processed. -/
theorem Honest.prec {G : Graph W} {R : ℕ → W → W} {p n k i : ℕ} {s : St W}
    (hi : Honest G p s i) (hk : ∀ m, Below G k m → OK G p (precF G R p n k s) m) :
    Honest G p (precF G R p n k s) i := by
  intro h e hb hc hp m hm
  by_cases hbk : Below G k h
  · exact hk m (hbk.trans hm)
  · rw [((prec_frame G R p n k s).2 h hbk).1] at hp
    exact prec_mono G R p m n k s (hi h e hb hc hp m hm)

theorem prec_ok (G : Graph W) (R : ℕ → W → W) (p : ℕ) : ∀ (n i : ℕ) (s : St W), i < n →
    (∀ m, Below G i m → (G.cell m).Plain) → Honest G p s i →
    ∀ m, Below G i m → OK G p (precF G R p n i s) m := by
  intro n
  induction n with
  | zero => intro i s h; omega
  | succ n ih =>
    intro i s hin hpl hh m hm
    cases hc : G.cell i with
    | var =>
      have := hm.leaf (by rw [hc]; rfl)
      subst this
      unfold OK; rw [hc]; trivial
    | num c =>
      have := hm.leaf (by rw [hc]; rfl)
      subst this
      rw [OK.num hc]
      left
      simp [precF, hc, St.mark]
    | lin f r c vs e =>
      have := hpl i (.refl i)
      rw [hc] at this
      exact this.elim
    | handle e =>
      by_cases hp : (s.val i).2 = p
      · have : precF G R p (n + 1) i s = s := by simp only [precF, hc]; rw [if_pos hp]
        rw [this]
        exact hh i e (.refl i) hc hp m hm
      · have hke : e ∈ (G.cell i).kids := by rw [hc]; simp [Cell.kids]
        have hei := G.acyclic i e hke
        have he : precF G R p (n + 1) i s = precF G R p n e (s.setPrec R p i) := by
          simp only [precF, hc]; rw [if_neg hp]
        rw [he]
        have hlt : ∀ {k j}, Below G k j → j ≤ k := by
          intro k j hb
          induction hb with
          | refl => exact le_refl _
          | step hm' _ ih' => exact le_trans ih' (le_of_lt (G.acyclic _ _ hm'))
        have hcong : ∀ j, Below G e j → OK G p s j → OK G p (s.setPrec R p i) j := by
          intro j hb h
          have hne : j ≠ i := by have := hlt hb; omega
          exact (OK.congr (by simp [St.setPrec, St.put, hne]) (by simp [St.setPrec, St.put])).2 h
        rcases hm.cases' with rfl | ⟨k, hk, hkm⟩
        · refine prec_mono G R p m n e _ ?_
          exact (OK.handle hc).2 (by simp [St.setPrec, St.put])
        · rw [hc] at hk
          simp only [Cell.kids, List.mem_singleton] at hk
          subst hk
          refine ih k _ (by omega) (fun m hm => hpl m (.step hke hm)) ?_ m hkm
          intro h e' hb hc' hp' m' hm'
          have hne : h ≠ i := by have := hlt hb; omega
          refine hcong m' (hb.trans hm') (hh h e' (.step hke hb) hc' ?_ m' hm')
          simpa [St.setPrec, St.put, hne] using hp'
    | op f os =>
      have he : precF G R p (n + 1) i s
          = os.foldl (fun s j => precF G R p n j s) (s.setPrec R p i) := by
        simp only [precF, hc]
      rw [he]
      have hput : ∀ j, OK G p s j → OK G p (s.setPrec R p i) j :=
        fun j h => h.put_other (by simp [hc]) (by simp [hc])
      have hval : ∀ h e, G.cell h = .handle e → (s.setPrec R p i).val h = s.val h := by
        intro h e hc'
        have : h ≠ i := by rintro rfl; rw [hc] at hc'; cases hc'
        simp [St.setPrec, St.put, this]
      rcases hm.cases' with rfl | ⟨k, hk, hkm⟩
      · unfold OK; rw [hc]; trivial
      rw [hc] at hk
      simp only [Cell.kids] at hk
      have key : ∀ (l : List ℕ), (∀ j ∈ l, j ∈ os) → ∀ s' : St W, (∀ j ∈ os, Honest G p s' j) →
          ∀ j ∈ l, ∀ m, Below G j m → OK G p (l.foldl (fun s j => precF G R p n j s) s') m := by
        intro l
        induction l with
        | nil => intro _ s' _ j hj; cases hj
        | cons a l ihl =>
          intro hsub s' hs' j hj m hm
          have ha : a ∈ (G.cell i).kids := by rw [hc]; exact hsub a (by simp)
          have h1 := ih a s' (by have := G.acyclic i a ha; omega)
            (fun m hm => hpl m (.step ha hm)) (hs' a (hsub a (by simp)))
          rw [List.foldl_cons]
          rcases List.mem_cons.1 hj with rfl | hj'
          · exact foldl_mono (fun s j hs => prec_mono G R p m n j s hs) l _ (h1 m hm)
          · exact ihl (fun j hj => hsub j (by simp [hj])) _ (fun b hb => (hs' b hb).prec h1) j hj' m hm
      refine key os (fun _ h => h) _ ?_ k hk m hkm
      intro j hj h e hb hc' hp' m' hm'
      rw [hval h e hc'] at hp'
      exact hput m' (hh h e (.step (by rw [hc]; exact hj) hb) hc' hp' m' hm')

/-- `precision` of all functions of a system. -/
theorem roots_ok (G : Graph W) (R : ℕ → W → W) (p : ℕ) (l : List ℕ) : ∀ (s : St W),
    (∀ i ∈ l, ∀ m, Below G i m → (G.cell m).Plain) → (∀ i ∈ l, Honest G p s i) →
    ∀ i ∈ l, ∀ m, Below G i m → OK G p (l.foldl (fun s i => precision G R p i s) s) m := by
  induction l with
  | nil => intro s _ _ i hi; cases hi
  | cons a l ih =>
    intro s hpl hh i hi m hm
    have h1 := prec_ok G R p (a + 1) a s (by omega) (hpl a (by simp)) (hh a (by simp))
    rw [List.foldl_cons]
    rcases List.mem_cons.1 hi with rfl | hi'
    · exact foldl_mono (fun s j hs => prec_mono G R p m _ j s hs) l _ (h1 m hm)
    · exact ih _ (fun i hi => hpl i (by simp [hi]))
        (fun b hb => (hh b (by simp [hb])).prec h1) i hi' m hm

theorem roots_frame (G : Graph W) (R : ℕ → W → W) (p : ℕ) (l : List ℕ) : ∀ (s : St W),
    (l.foldl (fun s i => precision G R p i s) s).dflt = s.dflt ∧
    ∀ j, ¬ Under G l j → (l.foldl (fun s i => precision G R p i s) s).val j = s.val j ∧
      (l.foldl (fun s i => precision G R p i s) s).flag j = s.flag j := by
  induction l with
  | nil => intro s; exact ⟨rfl, fun j _ => ⟨rfl, rfl⟩⟩
  | cons a l ih =>
    intro s
    have h1 := prec_frame G R p (a + 1) a s
    have h2 := ih (precision G R p a s)
    refine ⟨h2.1.trans h1.1, fun j hj => ?_⟩
    have x := h2.2 j fun ⟨i, hi, hb⟩ => hj ⟨i, by simp [hi], hb⟩
    have y := h1.2 j fun hb => hj ⟨a, by simp, hb⟩
    exact ⟨x.1.trans y.1, x.2.trans y.2⟩

/-- The node has no flag that `Reset` clears: a number. -/
def Cell.IsNum : Cell W → Prop
  | .num _ => True
  | _ => False

/-- Effect of `Reset` at nodes without linear products below. -/
structure Cleared (G : Graph W) (i : ℕ) (s s' : St W) : Prop where
  val : s'.val = s.val
  dflt : s'.dflt = s.dflt
  other : ∀ j, ¬ Below G i j → s'.flag j = s.flag j
  num : ∀ j, (G.cell j).IsNum → s'.flag j = s.flag j
  down : ∀ j, s.flag j = false → s'.flag j = false

theorem reset_frame (G : Graph W) : ∀ (n i : ℕ) (s : St W), Cleared G i s (resetF G n i s) := by
  intro n
  induction n with
  | zero => intro i s; exact ⟨rfl, rfl, fun _ _ => rfl, fun _ _ => rfl, fun _ h => h⟩
  | succ n ih =>
    have hl : ∀ (l : List ℕ) (s : St W),
        (l.foldl (fun s j => resetF G n j s) s).val = s.val ∧
        (l.foldl (fun s j => resetF G n j s) s).dflt = s.dflt ∧
        (∀ j, (∀ k ∈ l, ¬ Below G k j) → (l.foldl (fun s j => resetF G n j s) s).flag j = s.flag j) ∧
        (∀ j, (G.cell j).IsNum → (l.foldl (fun s j => resetF G n j s) s).flag j = s.flag j) ∧
        (∀ j, s.flag j = false → (l.foldl (fun s j => resetF G n j s) s).flag j = false) := by
      intro l
      induction l with
      | nil => intro s; exact ⟨rfl, rfl, fun _ _ => rfl, fun _ _ => rfl, fun _ h => h⟩
      | cons k l ihl =>
        intro s
        have h1 := ih k s
        obtain ⟨a, b, c, d, e⟩ := ihl (resetF G n k s)
        exact ⟨a.trans h1.val, b.trans h1.dflt,
          fun j hj => (c j fun k' hk' => hj k' (by simp [hk'])).trans (h1.other j (hj k (by simp))),
          fun j hj => (d j hj).trans (h1.num j hj), fun j hj => e j (h1.down j hj)⟩
    intro i s
    have hne : ∀ j, ¬ Below G i j → j ≠ i := fun j hj e => hj (e ▸ .refl _)
    have hother : ∀ j, ¬ Below G i j → (s.mark i false).flag j = s.flag j := by
      intro j hj; simp [St.mark, hne j hj]
    have hdown : ∀ j, s.flag j = false → (s.mark i false).flag j = false := by
      intro j hj; simp [St.mark, hj]
    have hnum : (∀ c, G.cell i ≠ .num c) → ∀ j, (G.cell j).IsNum →
        (s.mark i false).flag j = s.flag j := by
      intro hi j hj
      have : j ≠ i := by
        rintro rfl
        cases hc : G.cell j with
        | num c => exact hi c hc
        | _ => rw [hc] at hj; exact hj
      simp [St.mark, this]
    cases hc : G.cell i with
    | var =>
      simp only [resetF, hc]
      exact ⟨rfl, rfl, hother, hnum (by simp [hc]), hdown⟩
    | num c =>
      simp only [resetF, hc]
      exact ⟨rfl, rfl, fun _ _ => rfl, fun _ _ => rfl, fun _ h => h⟩
    | op f os =>
      simp only [resetF, hc]
      obtain ⟨a, b, c, d, e⟩ := hl os (s.mark i false)
      exact ⟨a, b, fun j hj => (c j fun k hk hb => hj (.step (by rw [hc]; exact hk) hb)).trans
          (hother j hj), fun j hj => (d j hj).trans (hnum (by simp [hc]) j hj),
        fun j hj => e j (hdown j hj)⟩
    | lin f r c vs e =>
      simp only [resetF, hc]
      obtain ⟨a, b, c, d, e⟩ := hl vs (s.mark i false)
      exact ⟨a, b, fun j hj => (c j fun k hk hb =>
          hj (.step (by rw [hc]; simp [Cell.kids, hk]) hb)).trans (hother j hj),
        fun j hj => (d j hj).trans (hnum (by simp [hc]) j hj), fun j hj => e j (hdown j hj)⟩
    | handle e =>
      simp only [resetF, hc]
      have h := ih e (s.mark i false)
      exact ⟨h.val, h.dflt, fun j hj => (h.other j fun hb =>
          hj (.step (by rw [hc]; simp [Cell.kids]) hb)).trans (hother j hj),
        fun j hj => (h.num j hj).trans (hnum (by simp [hc]) j hj),
        fun j hj => h.down j (hdown j hj)⟩

/-- After `Reset`, no operator or function below is up to date. -/
theorem reset_clears (G : Graph W) : ∀ (n i : ℕ) (s : St W), i < n →
    (∀ m, Below G i m → (G.cell m).Plain) →
    ∀ m, Below G i m → ¬ (G.cell m).IsNum → (resetF G n i s).flag m = false := by
  intro n
  induction n with
  | zero => intro i s h; omega
  | succ n ih =>
    intro i s hin hpl m hm hnn
    have hown : (s.mark i false).flag i = false := by simp [St.mark]
    cases hc : G.cell i with
    | var =>
      have := hm.leaf (by rw [hc]; rfl)
      subst this
      simp only [resetF, hc]
      exact hown
    | num c =>
      have := hm.leaf (by rw [hc]; rfl)
      subst this
      rw [hc] at hnn
      exact (hnn trivial).elim
    | lin f r c vs e =>
      have := hpl i (.refl i)
      rw [hc] at this
      exact this.elim
    | handle e =>
      simp only [resetF, hc]
      rcases hm.cases' with rfl | ⟨k, hk, hkm⟩
      · exact (reset_frame G n e _).down m hown
      · have hki := G.acyclic i k hk
        have hke := hk
        rw [hc] at hk
        simp only [Cell.kids, List.mem_singleton] at hk
        subst hk
        exact ih k _ (by omega) (fun m hm => hpl m (.step hke hm)) m hkm hnn
    | op f os =>
      simp only [resetF, hc]
      rcases hm.cases' with rfl | ⟨k, hk, hkm⟩
      · exact foldl_mono (P := fun s => s.flag m = false)
          (fun s j hs => (reset_frame G n j s).down m hs) os _ hown
      · rw [hc] at hk
        simp only [Cell.kids] at hk
        have key : ∀ (l : List ℕ), (∀ j ∈ l, j ∈ os) → k ∈ l → ∀ s' : St W,
            (l.foldl (fun s j => resetF G n j s) s').flag m = false := by
          intro l
          induction l with
          | nil => intro _ h; cases h
          | cons a l ihl =>
            intro hsub hkl s'
            have ha : a ∈ (G.cell i).kids := by rw [hc]; exact hsub a (by simp)
            rw [List.foldl_cons]
            rcases List.mem_cons.1 hkl with rfl | hkl
            · refine foldl_mono (P := fun s => s.flag m = false)
                (fun s j hs => (reset_frame G n j s).down m hs) l _ ?_
              exact ih k s' (by have := G.acyclic i k ha; omega) (fun m hm => hpl m (.step ha hm))
                m hkm hnn
            · exact ihl (fun j hj => hsub j (by simp [hj])) hkl _
        exact key os (fun _ h => h) hk _

/-- Before an evaluation at precision `p`: what is up to date is right. -/
def Right (G : Graph W) (p : ℕ) (x : ℕ → W) (s : St W) (i : ℕ) : Prop :=
  match G.cell i with
  | .var => s.val i = (x i, p)
  | .num c => s.flag i = true → s.val i = (c p, p)
  | .op _ _ => s.flag i = true → s.val i = (value G p x i, p)
  | .handle _ => (s.val i).2 = p ∧ (s.flag i = true → s.val i = (value G p x i, p))
  | .lin .. => False

theorem Right.congr {G : Graph W} {p : ℕ} {x : ℕ → W} {s s' : St W} {i : ℕ}
    (hv : s'.val i = s.val i) (hf : s'.flag i = s.flag i) :
    Right G p x s' i ↔ Right G p x s i := by
  unfold Right; rw [hv, hf]

theorem maxPrec_const (p d : ℕ) (l : List (MP W)) (h : ∀ a ∈ l, a.2 = p) (hl : l ≠ []) (hd : d ≤ p) :
    maxPrec d l = p := by
  induction l with
  | nil => exact absurd rfl hl
  | cons a l ih =>
    simp only [maxPrec, List.foldr_cons]
    rw [h a (by simp)]
    cases l with
    | nil => simp [hd]
    | cons b l =>
      have := ih (fun a ha => h a (by simp [ha])) (by simp)
      simp only [maxPrec] at this
      rw [this, max_self]

theorem thread_spec {G : Graph W} {p : ℕ} {x : ℕ → W} {ev : ℕ → St W → MP W × St W}
    {T : ℕ → Prop} (l : List ℕ)
    (hev : ∀ i ∈ l, ∀ s : St W, s.dflt = p → (∀ m, T m → Right G p x s m) →
      (ev i s).1 = (value G p x i, p) ∧ (ev i s).2.dflt = p ∧
      (∀ m, T m → Right G p x (ev i s).2 m) ∧
      ∀ m, ¬ Below G i m → (ev i s).2.val m = s.val m ∧ (ev i s).2.flag m = s.flag m) :
    ∀ s : St W, s.dflt = p → (∀ m, T m → Right G p x s m) →
      (thread ev l s).1 = l.map (fun i => (value G p x i, p)) ∧ (thread ev l s).2.dflt = p ∧
      (∀ m, T m → Right G p x (thread ev l s).2 m) ∧
      ∀ m, ¬ Under G l m →
        (thread ev l s).2.val m = s.val m ∧ (thread ev l s).2.flag m = s.flag m := by
  induction l with
  | nil => intro s hd hr; exact ⟨rfl, hd, hr, fun _ _ => ⟨rfl, rfl⟩⟩
  | cons a l ih =>
    intro s hd hr
    obtain ⟨h1, h2, h3, h4⟩ := hev a (by simp) s hd hr
    obtain ⟨k1, k2, k3, k4⟩ := ih (fun i hi => hev i (by simp [hi])) _ h2 h3
    refine ⟨?_, k2, k3, fun m hm => ?_⟩
    · simp only [thread, List.map_cons]
      rw [h1, k1]
    · have y := k4 m fun ⟨i, hi, hb⟩ => hm ⟨i, by simp [hi], hb⟩
      have z := h4 m fun hb => hm ⟨a, by simp, hb⟩
      exact ⟨y.1.trans z.1, y.2.trans z.2⟩

theorem eval_right (G : Graph W) (p : ℕ) (x : ℕ → W) (T : ℕ → Prop)
    (hT : ∀ i, T i → ∀ j ∈ (G.cell i).kids, T j) : ∀ (n i : ℕ) (s : St W), i < n → T i →
    s.dflt = p → (∀ m, T m → Right G p x s m) →
    (evalF G n i s).1 = (value G p x i, p) ∧ (evalF G n i s).2.dflt = p ∧
    (∀ m, T m → Right G p x (evalF G n i s).2 m) ∧
    ∀ m, ¬ Below G i m →
      (evalF G n i s).2.val m = s.val m ∧ (evalF G n i s).2.flag m = s.flag m := by
  intro n
  induction n with
  | zero => intro i s h; omega
  | succ n ih =>
    intro i s hin hTi hd hr
    have hri := hr i hTi
    have hkeep : ∀ (s' : St W) (y : MP W), y = (value G p x i, p) → ¬ (G.cell i).isVar = true →
        (G.cell i).Plain → (∀ m, T m → Right G p x s' m) →
        ∀ m, T m → Right G p x (keep i y s').2 m := by
      intro s' y hy hv hp hr' m hm
      by_cases hmi : m = i
      · subst hmi
        unfold Right
        cases hc : G.cell m with
        | var => rw [hc] at hv; exact (hv rfl).elim
        | lin => rw [hc] at hp; exact hp.elim
        | num c => intro _; simp [keep, St.put, St.mark, hy, value_num hc]
        | op f os => intro _; simp [keep, St.put, St.mark, hy]
        | handle e => exact ⟨by simp [keep, St.put, St.mark, hy], fun _ => by simp [keep, St.put, St.mark, hy]⟩
      · exact (Right.congr (by simp [keep, St.put, St.mark, hmi])
          (by simp [keep, St.put, St.mark, hmi])).2 (hr' m hm)
    have hframe : ∀ (s' : St W) (y : MP W), (∀ m, ¬ Below G i m → s'.val m = s.val m ∧ s'.flag m = s.flag m) →
        ∀ m, ¬ Below G i m → (keep i y s').2.val m = s.val m ∧ (keep i y s').2.flag m = s.flag m := by
      intro s' y h m hm
      have hne : m ≠ i := by rintro rfl; exact hm (.refl _)
      have := h m hm
      simpa [keep, St.put, St.mark, hne] using this
    cases hc : G.cell i with
    | var =>
      simp only [evalF, hc]
      unfold Right at hri
      rw [hc] at hri
      exact ⟨by rw [hri, value_var hc], hd, hr, fun _ _ => by simp⟩
    | num c =>
      simp only [evalF, hc]
      unfold Right at hri
      rw [hc] at hri
      by_cases hf : s.flag i = true
      · rw [if_pos hf]
        exact ⟨by rw [hri hf, value_num hc], hd, hr, fun _ _ => ⟨rfl, rfl⟩⟩
      · rw [if_neg hf]
        refine ⟨by simp [keep, hd, value_num hc], hd, ?_, hframe s _ fun _ _ => ⟨rfl, rfl⟩⟩
        exact hkeep s _ (by rw [hd, value_num hc]) (by simp [hc, Cell.isVar]) (by simp [hc, Cell.Plain]) hr
    | lin =>
      unfold Right at hri
      rw [hc] at hri
      exact hri.elim
    | op f os =>
      simp only [evalF, hc]
      unfold Right at hri
      rw [hc] at hri
      by_cases hf : s.flag i = true
      · rw [if_pos hf]
        exact ⟨hri hf, hd, hr, fun _ _ => ⟨rfl, rfl⟩⟩
      · rw [if_neg hf]
        have hmem : ∀ j ∈ os, j ∈ (G.cell i).kids := fun j hj => by rw [hc]; exact hj
        obtain ⟨h1, h2, h3, h4⟩ := thread_spec (G := G) (p := p) (x := x) (ev := evalF G n) (T := T) os
          (fun j hj s hd hr => ih j s (by have := G.acyclic i j (hmem j hj); omega)
            (hT i hTi j (hmem j hj)) hd hr) s hd hr
        have hq : maxPrec 0 (thread (evalF G n) os s).1 = p := by
          rw [h1]
          refine maxPrec_const p 0 _ ?_ ?_ (Nat.zero_le _)
          · intro a ha
            obtain ⟨j, _, rfl⟩ := List.mem_map.1 ha
            rfl
          · simp [G.operands i f os hc]
        have hy : (f p ((thread (evalF G n) os s).1.map Prod.fst), p) = (value G p x i, p) := by
          rw [h1, value_op hc, List.map_map]
          rfl
        rw [hq, hy]
        refine ⟨rfl, h2, hkeep _ _ rfl (by simp [hc, Cell.isVar]) (by simp [hc, Cell.Plain]) h3,
          hframe _ _ fun m hm => h4 m ?_⟩
        rintro ⟨j, hj, hb⟩
        exact hm (.step (hmem j hj) hb)
    | handle e =>
      simp only [evalF, hc]
      unfold Right at hri
      rw [hc] at hri
      by_cases hf : s.flag i = true
      · rw [if_pos hf]
        exact ⟨hri.2 hf, hd, hr, fun _ _ => ⟨rfl, rfl⟩⟩
      · rw [if_neg hf]
        have hmem : e ∈ (G.cell i).kids := by rw [hc]; simp [Cell.kids]
        obtain ⟨h1, h2, h3, h4⟩ := ih e s (by have := G.acyclic i e hmem; omega) (hT i hTi e hmem) hd hr
        rw [h1, ← value_handle hc]
        refine ⟨rfl, h2, hkeep _ _ rfl (by simp [hc, Cell.isVar]) (by simp [hc, Cell.Plain]) h3,
          hframe _ _ fun m hm => h4 m fun hb => hm (.step hmem hb)⟩

/-! ### C130 -/

/-- What is touched by a use, apart from the values of variables. -/
theorem use_spec (G : Graph W) (R : ℕ → W → W) (s : St W) (u : Use W)
    (hpl : ∀ m, Under G u.roots m → (G.cell m).Plain)
    (hh : ∀ i ∈ u.roots, Honest G u.p s i) :
    (use G R s u).1 = u.roots.map (fun i => (value G u.p u.x i, u.p)) ∧
    ∀ m, Under G u.roots m → OK G u.p (use G R s u).2 m := by
  obtain ⟨p, l, x⟩ := u
  dsimp only at *
  have hhd : ∀ i ∈ l, Honest G p { s with dflt := p } i := fun i hi => hh i hi
  have h1 := roots_ok G R p l { s with dflt := p } (fun i hi m hm => hpl m ⟨i, hi, hm⟩) hhd
  have f1 := roots_frame G R p l { s with dflt := p }
  simp only [use]
  generalize hs1 : l.foldl (fun s i => precision G R p i s) { s with dflt := p } = s1 at h1 f1 ⊢
  have key : ∀ (l' : List ℕ) (s2 : St W), (∀ i ∈ l', i ∈ l) →
      let s3 := l'.foldl (fun s i => reset G i s) s2
      s3.val = s2.val ∧ s3.dflt = s2.dflt ∧ (∀ j, (G.cell j).IsNum → s3.flag j = s2.flag j) ∧
      (∀ j, s2.flag j = false → s3.flag j = false) ∧
      ∀ m, Under G l' m → ¬ (G.cell m).IsNum → s3.flag m = false := by
    intro l'
    induction l' with
    | nil => intro s2 _; exact ⟨rfl, rfl, fun _ _ => rfl, fun _ h => h, fun m ⟨i, hi, _⟩ => by cases hi⟩
    | cons a l' ih =>
      intro s2 hsub
      obtain ⟨k1, k2, k3, k4, k5⟩ := ih (reset G a s2) (fun i hi => hsub i (by simp [hi]))
      have r := reset_frame G (a + 1) a s2
      refine ⟨k1.trans r.val, k2.trans r.dflt, fun j hj => (k3 j hj).trans (r.num j hj),
        fun j hj => k4 j (r.down j hj), ?_⟩
      rintro m ⟨i, hi, hb⟩ hm
      rcases List.mem_cons.1 hi with rfl | hi
      · exact k4 m (reset_clears G (i + 1) i s2 (by omega)
          (fun m hm => hpl m ⟨i, hsub i (by simp), hm⟩) m hb hm)
      · exact k5 m ⟨i, hi, hb⟩ hm
  obtain ⟨k1, k2, k3, k4, k5⟩ := key l (setVars G p x s1) (fun _ h => h)
  generalize hs3 : l.foldl (fun s i => reset G i s) (setVars G p x s1) = s3 at k1 k2 k3 k4 k5 ⊢
  have hright : ∀ m, Under G l m → Right G p x s3 m := by
    intro m hm
    obtain ⟨i, hi, hb⟩ := hm
    have hok := h1 i hi m hb
    have hplm := hpl m ⟨i, hi, hb⟩
    have hk5 := k5 m ⟨i, hi, hb⟩
    unfold Right
    cases hc : G.cell m with
    | var => simp [k1, setVars, hc, Cell.isVar]
    | num c =>
      intro hf
      rw [k3 m (by rw [hc]; trivial)] at hf
      rcases (OK.num hc).1 hok with h | h
      · rw [show (setVars G p x s1).flag m = s1.flag m from rfl, h] at hf; cases hf
      · simp [k1, setVars, hc, Cell.isVar, h]
    | op f os =>
      intro hf
      rw [hk5 (by rw [hc]; exact fun h => h)] at hf; cases hf
    | handle e =>
      refine ⟨?_, fun hf => ?_⟩
      · simpa [k1, setVars, hc, Cell.isVar] using (OK.handle hc).1 hok
      · rw [hk5 (by rw [hc]; exact fun h => h)] at hf; cases hf
    | lin f r c vs e => rw [hc] at hplm; exact hplm
  have hclosed : ∀ i, Under G l i → ∀ j ∈ (G.cell i).kids, Under G l j :=
    fun i ⟨k, hk, hb⟩ j hj => ⟨k, hk, hb.trans (.step hj (.refl j))⟩
  obtain ⟨e1, _, e3, _⟩ := thread_spec (G := G) (p := p) (x := x) (ev := eval G) (T := Under G l) l
    (fun i hi s hd hr => eval_right G p x (Under G l) hclosed (i + 1) i s (by omega)
      ⟨i, hi, .refl i⟩ hd hr) s3 (by rw [k2]; exact f1.1) hright
  refine ⟨e1, fun m hm => ?_⟩
  have := e3 m hm
  unfold Right at this
  unfold OK
  cases hc : G.cell m with
  | num c =>
    rw [hc] at this
    by_cases hf : (thread (eval G) l s3).2.flag m = true
    · exact .inr (this hf)
    · exact .inl (by simpa using hf)
  | handle e => rw [hc] at this; exact this.1
  | _ => trivial

theorem use_frame (G : Graph W) (R : ℕ → W → W) (s : St W) (u : Use W) (m : ℕ)
    (hm : ¬ Under G u.roots m) (hv : (G.cell m).isVar = false) :
    (use G R s u).2.val m = s.val m ∧ (use G R s u).2.flag m = s.flag m := by
  have f1 := (roots_frame G R u.p u.roots { s with dflt := u.p }).2 m hm
  have hevF : ∀ (n i : ℕ) (s : St W), ¬ Below G i m →
      (evalF G n i s).2.val m = s.val m ∧ (evalF G n i s).2.flag m = s.flag m := by
    intro n
    induction n with
    | zero => intro i s _; exact ⟨rfl, rfl⟩
    | succ n ih =>
      have hth : ∀ (l : List ℕ) (s : St W), (∀ i ∈ l, ¬ Below G i m) →
          (thread (evalF G n) l s).2.val m = s.val m ∧
          (thread (evalF G n) l s).2.flag m = s.flag m := by
        intro l
        induction l with
        | nil => intro s _; exact ⟨rfl, rfl⟩
        | cons a l ihl =>
          intro s h
          have x := ihl (evalF G n a s).2 fun i hi => h i (by simp [hi])
          have y := ih a s (h a (by simp))
          exact ⟨x.1.trans y.1, x.2.trans y.2⟩
      intro i s hb
      have hne : m ≠ i := by rintro rfl; exact hb (.refl _)
      have hk : ∀ (y : MP W) (s' : St W), s'.val m = s.val m ∧ s'.flag m = s.flag m →
          (keep i y s').2.val m = s.val m ∧ (keep i y s').2.flag m = s.flag m := by
        intro y s' h
        simpa [keep, St.put, St.mark, hne] using h
      have hkid : ∀ j ∈ (G.cell i).kids, ¬ Below G j m := fun j hj h => hb (.step hj h)
      cases hc : G.cell i with
      | var => simp [evalF, hc]
      | num c =>
        simp only [evalF, hc]
        by_cases hf : s.flag i = true
        · rw [if_pos hf]; exact ⟨rfl, rfl⟩
        · rw [if_neg hf]; exact hk _ _ ⟨rfl, rfl⟩
      | op f os =>
        simp only [evalF, hc]
        by_cases hf : s.flag i = true
        · rw [if_pos hf]; exact ⟨rfl, rfl⟩
        · rw [if_neg hf]
          exact hk _ _ (hth os s fun j hj => hkid j (by rw [hc]; exact hj))
      | lin f r c vs e =>
        simp only [evalF, hc]
        by_cases hf : s.flag i = true
        · rw [if_pos hf]; exact ⟨rfl, rfl⟩
        · rw [if_neg hf]
          exact hk _ _ (hth (vs ++ [e]) s fun j hj => hkid j (by rw [hc]; exact hj))
      | handle e =>
        simp only [evalF, hc]
        by_cases hf : s.flag i = true
        · rw [if_pos hf]; exact ⟨rfl, rfl⟩
        · rw [if_neg hf]
          exact hk _ _ (ih e s (hkid e (by rw [hc]; simp [Cell.kids])))
  have hth : ∀ (l : List ℕ) (s : St W), (∀ i ∈ l, ¬ Below G i m) →
      (thread (eval G) l s).2.val m = s.val m ∧ (thread (eval G) l s).2.flag m = s.flag m := by
    intro l
    induction l with
    | nil => intro s _; exact ⟨rfl, rfl⟩
    | cons a l ihl =>
      intro s h
      have x := ihl (eval G a s).2 fun i hi => h i (by simp [hi])
      have y := hevF (a + 1) a s (h a (by simp))
      exact ⟨x.1.trans y.1, x.2.trans y.2⟩
  have hrs : ∀ (l : List ℕ) (s : St W), (∀ i ∈ l, ¬ Below G i m) →
      (l.foldl (fun s i => reset G i s) s).val m = s.val m ∧
      (l.foldl (fun s i => reset G i s) s).flag m = s.flag m := by
    intro l
    induction l with
    | nil => intro s _; exact ⟨rfl, rfl⟩
    | cons a l ihl =>
      intro s h
      have x := ihl (reset G a s) fun i hi => h i (by simp [hi])
      have r := reset_frame G (a + 1) a s
      exact ⟨x.1.trans (congrFun r.val m), x.2.trans (r.other m (h a (by simp)))⟩
  have hn : ∀ i ∈ u.roots, ¬ Below G i m := fun i hi hb => hm ⟨i, hi, hb⟩
  simp only [use]
  have a := hth u.roots (u.roots.foldl (fun s i => reset G i s) (setVars G u.p u.x
    (u.roots.foldl (fun s i => precision G R u.p i s) { s with dflt := u.p }))) hn
  have b := hrs u.roots (setVars G u.p u.x
    (u.roots.foldl (fun s i => precision G R u.p i s) { s with dflt := u.p })) hn
  have c : (setVars G u.p u.x (u.roots.foldl (fun s i => precision G R u.p i s)
      { s with dflt := u.p })).val m
      = (u.roots.foldl (fun s i => precision G R u.p i s) { s with dflt := u.p }).val m := by
    simp [setVars, hv]
  exact ⟨a.1.trans (b.1.trans (c.trans f1.1)), a.2.trans (b.2.trans f1.2)⟩

/-- C130: `DefaultPrecision(p); sys.precision(p)`, then evaluation at a point of that precision: the
functions have the values computed with `p` digits throughout, constants included, and these have
precision `p`. Whatever was evaluated before, at whatever precisions, in this or in other systems. -/
def C130_full : Prop :=
  ∀ (W : Type) (G : Graph W) (R : ℕ → W → W) (zero : W) (d : ℕ) (us : List (Use W)) (u : Use W),
    (use G R (run G R (fresh G zero d) us) u).1 = u.roots.map fun i => (value G u.p u.x i, u.p)

/-- Nodes that systems may share without harm: variables and operators. -/
def Cell.Harmless : Cell W → Prop
  | .var => True
  | .op _ _ => True
  | _ => False

/-- What holds: for systems without linear products, used along with any other systems that have
no function and no constant in common with this one. Missing: linear products, shared constants. -/
theorem C130_partial (G : Graph W) (R : ℕ → W → W) (zero : W) (d : ℕ) (us : List (Use W)) (u : Use W)
    (hpl : ∀ m, Under G u.roots m → (G.cell m).Plain)
    (hsep : ∀ v ∈ us, v.roots = u.roots ∨
      ∀ m, Under G v.roots m → Under G u.roots m → (G.cell m).Harmless) :
    (use G R (run G R (fresh G zero d) us) u).1 = u.roots.map fun i => (value G u.p u.x i, u.p) := by
  have hinv : ∀ (us : List (Use W)) (s : St W), (∀ v ∈ us, v.roots = u.roots ∨
      ∀ m, Under G v.roots m → Under G u.roots m → (G.cell m).Harmless) →
      (∃ q, ∀ m, Under G u.roots m → OK G q s m) →
      ∃ q, ∀ m, Under G u.roots m → OK G q (run G R s us) m := by
    intro us
    induction us with
    | nil => intro s _ h; exact h
    | cons v us ih =>
      intro s hsep ⟨q, hq⟩
      refine ih _ (fun w hw => hsep w (by simp [hw])) ?_
      rcases hsep v (by simp) with h | h
      · refine ⟨v.p, fun m hm => ?_⟩
        refine (use_spec G R s v (by rw [h]; exact hpl) ?_).2 m (by rw [h]; exact hm)
        intro i hi h' e hb hc hp m' hm'
        have hu : Under G u.roots h' := ⟨i, by rw [← h]; exact hi, hb⟩
        have := (OK.handle hc).1 (hq h' hu)
        rw [hp] at this
        rw [this]
        exact hq m' ⟨i, by rw [← h]; exact hi, hb.trans hm'⟩
      · refine ⟨q, fun m hm => ?_⟩
        by_cases hv : Under G v.roots m
        · have := h m hv hm
          unfold OK
          cases hc : G.cell m with
          | num c => rw [hc] at this; exact this.elim
          | handle e => rw [hc] at this; exact this.elim
          | _ => trivial
        · cases hiv : (G.cell m).isVar with
          | true =>
            unfold OK
            cases hc : G.cell m with
            | num c => rw [hc] at hiv; cases hiv
            | handle e => rw [hc] at hiv; cases hiv
            | _ => trivial
          | false =>
            have f := use_frame G R s v m hv hiv
            exact (OK.congr f.1 f.2).2 (hq m hm)
  obtain ⟨q, hq⟩ := hinv us (fresh G zero d) hsep ⟨d, fun m _ => by
    unfold OK
    cases hc : G.cell m with
    | num c => exact .inl rfl
    | handle e => rfl
    | _ => trivial⟩
  refine (use_spec G R _ u hpl ?_).1
  intro i hi h' e hb hc hp m' hm'
  have := (OK.handle hc).1 (hq h' ⟨i, hi, hb⟩)
  rw [hp] at this
  rw [this]
  exact hq m' ⟨i, hi, hb.trans hm'⟩

/-- Values are numbers of correct digits here: a constant computed at `q` digits has `q`. Functions 1
and 2, of different systems, have the same constant 0; function 3 is the sum of the constant 4 and
the variable 5 and shares the variable with function 7. -/
def shared : Graph ℕ where
  cell
    | 0 => .num fun q => q
    | 1 => .handle 0
    | 2 => .handle 0
    | 4 => .num fun q => q
    | 5 => .var
    | 6 => .op (fun _ l => l.foldr min 1000) [4, 5]
    | 7 => .handle 6
    | 8 => .handle 5
    | _ => .var
  acyclic := by
    intro i j hj
    match i with
    | 0 | 3 | 4 | 5 => simp [Cell.kids] at hj
    | 1 | 2 | 6 | 7 | 8 => simp [Cell.kids] at hj; omega
    | _ + 9 => simp [Cell.kids] at hj
  operands := by
    intro i f os h
    match i with
    | 0 | 1 | 2 | 3 | 4 | 5 | 7 | 8 => simp at h
    | 6 => simp at h; rw [← h.2]; simp
    | _ + 9 => simp at h

/-- The code violates C130. Two systems share the constant: evaluate the first with 50 digits, the
second with 30, and the first with 50 again. The function of the first still has a value of 50 digits,
so the constant, known to 30 digits, is not visited: the result has 30 digits only. -/
theorem C130_refuted : ¬ C130_full := by
  intro H
  have h := H ℕ shared (fun _ x => x) 0 16 [⟨50, [1], fun _ => 50⟩, ⟨30, [2], fun _ => 30⟩]
    ⟨50, [1], fun _ => 50⟩
  simp only [List.map_cons, List.map_nil] at h
  rw [value_handle (e := 0) rfl, value_num (c := fun q => q) rfl] at h
  revert h
  decide

/-- A product of one linear factor, with one coefficient, of a one. -/
def linear (rational : Bool) : Graph ℕ where
  cell
    | 0 => .num fun _ => 1000
    | 1 => .lin (fun _ l => l.foldr min 1000) rational [fun q => q] [] 0
    | 2 => .handle 1
    | _ => .var
  acyclic := by
    intro i j hj
    match i with
    | 0 => simp [Cell.kids] at hj
    | 1 | 2 => simp [Cell.kids] at hj; omega
    | _ + 3 => simp [Cell.kids] at hj
  operands := by
    intro i f os h
    match i with
    | 0 | 1 | 2 => simp at h
    | _ + 3 => simp at h

/-- The code violates C130 for linear products, even in a single system: the coefficients keep the
precision that was the default when the linear product was made, here 16 digits. -/
theorem C130_linear_refuted :
    (use (linear true) (fun _ x => x) (fresh (linear true) 0 16) ⟨50, [2], fun _ => 50⟩).1
      ≠ [(value (linear true) 50 (fun _ => 50) 2, 50)] := by
  rw [value_handle (e := 1) rfl, value_lin (i := 1) rfl, List.nil_append, List.map_cons, List.map_nil,
    List.map_cons, List.map_nil, value_num (i := 0) (c := fun _ => 1000) rfl]
  decide

/-- Non-vacuity: function 7 evaluated with 50 digits, with 16, and with 30; function 8 shares the
variable and is evaluated in between. -/
example : (use shared (fun _ x => x) (run shared (fun _ x => x) (fresh shared 0 20)
      [⟨50, [7], fun _ => 50⟩, ⟨16, [8], fun _ => 16⟩, ⟨16, [7], fun _ => 16⟩])
      ⟨30, [7], fun _ => 30⟩).1 = [(30, 30)] := by
  have u7 : ∀ m, Under shared [7] m → m = 7 ∨ m = 6 ∨ m = 4 ∨ m = 5 := by
    rintro m ⟨i, hi, hb⟩
    simp only [List.mem_singleton] at hi
    subst hi
    rcases hb.cases' with h | ⟨k, hk, hb⟩
    · exact .inl h
    · simp only [shared, Cell.kids, List.mem_singleton] at hk
      subst hk
      rcases hb.cases' with h | ⟨k, hk, hb⟩
      · exact .inr (.inl h)
      · simp only [shared, Cell.kids, List.mem_cons, List.not_mem_nil, or_false] at hk
        rcases hk with rfl | rfl
        · exact .inr (.inr (.inl (hb.leaf rfl)))
        · exact .inr (.inr (.inr (hb.leaf rfl)))
  have u8 : ∀ m, Under shared [8] m → m = 8 ∨ m = 5 := by
    rintro m ⟨i, hi, hb⟩
    simp only [List.mem_singleton] at hi
    subst hi
    rcases hb.cases' with h | ⟨k, hk, hb⟩
    · exact .inl h
    · simp only [shared, Cell.kids, List.mem_singleton] at hk
      subst hk
      exact .inr (hb.leaf rfl)
  rw [C130_partial shared (fun _ x => x) 0 20]
  · simp only [List.map_cons, List.map_nil]
    rw [value_handle (e := 6) rfl, value_op (i := 6) rfl]
    simp only [List.map_cons, List.map_nil]
    rw [value_num (i := 4) (c := fun q => q) rfl, value_var (i := 5) rfl]
    rfl
  · intro m hm
    rcases u7 m hm with rfl | rfl | rfl | rfl <;> trivial
  · intro v hv
    simp only [List.mem_cons, List.not_mem_nil, or_false] at hv
    rcases hv with rfl | rfl | rfl
    · exact .inl rfl
    · right
      intro m h8 h7
      rcases u8 m h8 with rfl | rfl
      · rcases u7 _ h7 with h | h | h | h <;> cases h
      · trivial
    · exact .inl rfl

/-! ### C131 -/

/-- C131: whenever the system has a straight line program, the constants in its memory are those of the
precision the program has, whatever was done before: calls of `precision`, of `Differentiate`, and
changes of the default precision in any order. Rounding is supposed to keep numbers of that
precision. -/
def C131_full : Prop :=
  ∀ (W : Type) (G : Graph W) (R : ℕ → W → W) (zero : W) (d : ℕ) (roots nums : List ℕ),
    (∀ n ∈ nums, ∃ c, G.cell n = .num c ∧ Under G roots n ∧ ∀ p, R p (c p) = c p) →
    ∀ (ops : List Op) (p : ℕ) (m : ℕ → MP W),
      (ops.foldl (step G R zero roots nums) ⟨fresh G zero d, none⟩).slp = some (p, m) →
      ∀ n ∈ nums, ∀ c, G.cell n = .num c → m n = (c p, p)

/-- What a program does that sets the default precision along with the precision of the system. -/
inductive Act
  | use (p : ℕ)
  | differentiate

/-- The calls made. -/
def Act.ops : Act → List Op
  | .use p => [.dflt p, .precision p]
  | .differentiate => [.differentiate]

/-- What loading constants does to the nodes. -/
theorem loadNums_spec (G : Graph W) (R : ℕ → W → W) (p : ℕ) (l : List ℕ) : ∀ (s : St W) (m : ℕ → MP W),
    s.dflt = p →
    (∀ n ∈ l, ∃ c, G.cell n = .num c ∧ R p (c p) = c p ∧ (s.flag n = false ∨ R p (s.val n).1 = c p)) →
    let r := loadNums G l s m
    r.1.dflt = p ∧
    (∀ j, (r.1.flag j = s.flag j ∧ r.1.val j = s.val j) ∨
      ∃ c, G.cell j = .num c ∧ r.1.val j = (c p, p)) ∧
    (∀ j, j ∉ l → r.2 j = m j) ∧
    ∀ n ∈ l, ∀ c, G.cell n = .num c → R p (r.2 n).1 = c p := by
  induction l with
  | nil =>
    intro s m hd _
    exact ⟨hd, fun j => .inl ⟨rfl, rfl⟩, fun _ _ => rfl, fun n hn => by cases hn⟩
  | cons a l ih =>
    intro s m hd hn
    obtain ⟨c, hc, hR, hflag⟩ := hn a (by simp)
    have hev : eval G a s = if s.flag a then (s.val a, s) else keep a (c s.dflt, s.dflt) s := by
      simp only [eval, evalF, hc]
    have hfst : R p (eval G a s).1.1 = c p := by
      rw [hev]
      by_cases hf : s.flag a = true
      · rw [if_pos hf]
        rcases hflag with h | h
        · rw [h] at hf; cases hf
        · exact h
      · rw [if_neg hf]; simp [keep, hd, hR]
    have hst : ∀ j, ((eval G a s).2.flag j = s.flag j ∧ (eval G a s).2.val j = s.val j) ∨
        (j = a ∧ (eval G a s).2.val j = (c p, p)) := by
      intro j
      rw [hev]
      by_cases hf : s.flag a = true
      · rw [if_pos hf]; exact .inl ⟨rfl, rfl⟩
      · rw [if_neg hf]
        by_cases hj : j = a
        · subst hj; exact .inr ⟨rfl, by simp [keep, St.put, St.mark, hd]⟩
        · exact .inl (by simp [keep, St.put, St.mark, hj])
    have hdf : (eval G a s).2.dflt = p := by
      rw [hev]
      by_cases hf : s.flag a = true
      · rw [if_pos hf]; exact hd
      · rw [if_neg hf]; exact hd
    obtain ⟨k1, k2, k3, k4⟩ := ih (eval G a s).2 (fun j => if j = a then (eval G a s).1 else m j) hdf (by
      intro n hnl
      obtain ⟨c', hc', hR', hf'⟩ := hn n (by simp [hnl])
      refine ⟨c', hc', hR', ?_⟩
      rcases hst n with h | ⟨rfl, h⟩
      · rw [h.1, h.2]; exact hf'
      · rw [hc] at hc'; cases hc'
        right; rw [h]; exact hR)
    refine ⟨k1, fun j => ?_, fun j hj => ?_, fun n hnl c' hc' => ?_⟩
    · rcases k2 j with h | ⟨c', hc', h⟩
      · rcases hst j with h' | ⟨rfl, h'⟩
        · exact .inl ⟨h.1.trans h'.1, h.2.trans h'.2⟩
        · exact .inr ⟨c, hc, h.2.trans h'⟩
      · exact .inr ⟨c', hc', h⟩
    · have hja : j ≠ a := fun h => hj (by simp [h])
      have := k3 j fun h => hj (by simp [h])
      simp only [loadNums]
      rw [this, if_neg hja]
    · by_cases hal : n ∈ l
      · exact k4 n hal c' hc'
      · rcases List.mem_cons.1 hnl with rfl | h
        · have := k3 n hal
          simp only [loadNums]
          rw [this, if_pos rfl, hfst]
          rw [hc] at hc'; cases hc'; rfl
        · exact absurd h hal

/-- What holds: as long as the default precision is set to the same value before every call of
`sys.precision`, and not otherwise. The constants are those of the functions, or exact (those that
only come up in derivatives are integers and halves). Missing from `C131_full`: other orders. -/
theorem C131_partial (G : Graph W) (R : ℕ → W → W) (zero : W) (d : ℕ) (roots nums : List ℕ)
    (hpl : ∀ m, Under G roots m → (G.cell m).Plain)
    (hnum : ∀ n ∈ nums, ∃ c, G.cell n = .num c ∧ (∀ p, R p (c p) = c p) ∧
      (Under G roots n ∨ ∀ p q, c p = c q))
    (acts : List Act) (p : ℕ) (m : ℕ → MP W)
    (h : ((acts.flatMap Act.ops).foldl (step G R zero roots nums) ⟨fresh G zero d, none⟩).slp
      = some (p, m)) :
    ∀ n ∈ nums, ∀ c, G.cell n = .num c → m n = (c p, p) := by
  let Inv : Sys W → Prop := fun s =>
    (∀ m, Under G roots m → OK G s.st.dflt s.st m) ∧
    (∀ n ∈ nums, ¬ Under G roots n → ∀ c, G.cell n = .num c → s.st.flag n = false ∨
      (s.st.val n).1 = c 0) ∧
    ∀ p m, s.slp = some (p, m) → p = s.st.dflt ∧ ∀ n ∈ nums, ∀ c, G.cell n = .num c → m n = (c p, p)
  have hload : ∀ (st : St W) (m : ℕ → MP W), (∀ j, Under G roots j → OK G st.dflt st j) →
      (∀ n ∈ nums, ¬ Under G roots n → ∀ c, G.cell n = .num c → st.flag n = false ∨
        (st.val n).1 = c 0) →
      Inv ⟨(loadNums G nums st m).1, some (st.dflt, roundMem R st.dflt (loadNums G nums st m).2)⟩ := by
    intro st m h1 h2
    obtain ⟨k1, k2, _, k4⟩ := loadNums_spec G R st.dflt nums st m rfl (by
      intro n hn
      obtain ⟨c, hc, hR, hu⟩ := hnum n hn
      refine ⟨c, hc, hR _, ?_⟩
      by_cases hun : Under G roots n
      · rcases (OK.num hc).1 (h1 n hun) with h | h
        · exact .inl h
        · exact .inr (by rw [h]; exact hR _)
      · rcases h2 n hn hun c hc with h | h
        · exact .inl h
        · refine .inr ?_
          rcases hu with hu | hu
          · exact absurd hu hun
          · rw [h, hu 0 st.dflt]; exact hR _)
    refine ⟨fun j hj => ?_, fun n hn hun c hc => ?_, fun p m' he => ?_⟩
    · rcases k2 j with h | ⟨c, hc, h⟩
      · dsimp only
        rw [k1]
        exact (OK.congr h.2 h.1).2 (h1 j hj)
      · dsimp only
        rw [k1]
        exact (OK.num hc).2 (.inr h)
    · dsimp only
      rcases k2 n with h | ⟨c', hc', h⟩
      · rw [h.1, h.2]; exact h2 n hn hun c hc
      · rw [hc] at hc'; cases hc'
        obtain ⟨c', hc', _, hu⟩ := hnum n hn
        rw [hc] at hc'; cases hc'
        rcases hu with hu | hu
        · exact absurd hu hun
        · right; rw [h]; exact hu _ _
    · simp only [Option.some.injEq, Prod.mk.injEq] at he
      obtain ⟨rfl, rfl⟩ := he
      refine ⟨k1.symm, fun n hn c hc => ?_⟩
      simp only [roundMem]
      rw [k4 n hn c hc]
  have hstep : ∀ (s : Sys W), Inv s → ∀ a : Act, Inv (a.ops.foldl (step G R zero roots nums) s) := by
    rintro ⟨st, slp⟩ ⟨i1, i2, i3⟩ a
    cases a with
    | differentiate =>
      simp only [Act.ops, List.foldl_cons, List.foldl_nil, step]
      exact hload st _ i1 i2
    | use p =>
      simp only [Act.ops, List.foldl_cons, List.foldl_nil, step]
      have f := roots_frame G R p roots { st with dflt := p }
      have hok := roots_ok G R p roots { st with dflt := p } (fun i hi m hm => hpl m ⟨i, hi, hm⟩) (by
        intro i hi h' e hb hc hp m' hm'
        have := (OK.handle hc).1 (i1 h' ⟨i, hi, hb⟩)
        dsimp only at hp this
        rw [hp] at this
        have h3 := i1 m' ⟨i, hi, hb.trans hm'⟩
        rw [← this] at h3
        exact h3)
      generalize roots.foldl (fun s i => precision G R p i s) { st with dflt := p } = st' at f hok ⊢
      have hd : st'.dflt = p := f.1
      have j1 : ∀ m, Under G roots m → OK G st'.dflt st' m := by
        rintro m ⟨i, hi, hb⟩
        rw [hd]
        exact hok i hi m hb
      have j2 : ∀ n ∈ nums, ¬ Under G roots n → ∀ c, G.cell n = .num c → st'.flag n = false ∨
          (st'.val n).1 = c 0 := by
        intro n hn hun c hc
        have := f.2 n hun
        rw [this.1, this.2]
        exact i2 n hn hun c hc
      cases slp with
      | none => exact ⟨j1, j2, fun _ _ he => by cases he⟩
      | some qm =>
        obtain ⟨q, m⟩ := qm
        dsimp only
        by_cases hq : p = q
        · rw [if_pos hq]
          refine ⟨j1, j2, fun p' m' he => ?_⟩
          simp only [Option.some.injEq, Prod.mk.injEq] at he
          obtain ⟨rfl, rfl⟩ := he
          have := i3 q m rfl
          exact ⟨by rw [hd, hq], this.2⟩
        · rw [if_neg hq]
          have := hload st' m j1 j2
          rw [hd] at this
          exact this
  have hall : ∀ (acts : List Act) (s : Sys W), Inv s →
      Inv ((acts.flatMap Act.ops).foldl (step G R zero roots nums) s) := by
    intro acts
    induction acts with
    | nil => intro s hs; exact hs
    | cons a acts ih =>
      intro s hs
      rw [List.flatMap_cons, List.foldl_append]
      exact ih _ (hstep s hs a)
  have h0 : Inv ⟨fresh G zero d, none⟩ := by
    refine ⟨fun m _ => ?_, fun _ _ _ _ _ => .inl rfl, fun _ _ he => by cases he⟩
    unfold OK
    cases hc : G.cell m with
    | num c => exact .inl rfl
    | handle e => rfl
    | _ => trivial
  exact ((hall acts _ h0).2.2 p m h).2

/-- The program's precision, and a constant in its memory. -/
def constant (s : Sys W) (n : ℕ) : Option (ℕ × MP W) := s.slp.map fun r => (r.1, r.2 n)

theorem shared_under : Under shared [1] 0 :=
  ⟨1, by simp, .step (j := 0) (by simp [shared, Cell.kids]) (.refl 0)⟩

/-- The code violates C131: made at 16 digits, the system is given 50 digits by `sys.precision(50)`
while the default precision is 16. The constant is evaluated with 16 digits and padded. -/
theorem C131_refuted : ¬ C131_full := by
  intro H
  have h := H ℕ shared (fun _ x => x) 0 16 [1] [0]
    (by
      intro n hn
      simp only [List.mem_singleton] at hn
      subst hn
      exact ⟨fun q => q, rfl, shared_under, fun _ => rfl⟩)
    [.differentiate, .precision 50]
  generalize he : ([.differentiate, .precision 50] : List Op).foldl
    (step shared (fun _ x => x) 0 [1] [0]) ⟨fresh shared 0 16, none⟩ = s at h
  have hc : constant s 0 = some (50, 16, 50) := by rw [← he]; decide
  cases hs : s.slp with
  | none => rw [constant, hs] at hc; cases hc
  | some r =>
    rw [constant, hs] at hc
    have := h r.1 r.2 hs 0 (by simp) (fun q => q) rfl
    simp only [Option.map_some, Option.some.injEq, Prod.mk.injEq] at hc
    rw [this] at hc
    have h1 := congrArg Prod.fst hc.2
    dsimp only at h1
    omega

/-- Setting the default precision and asking for 50 digits again does not help: the program believes
it has 50 digits. -/
theorem C131_stuck :
    constant ([.differentiate, .precision 50, .dflt 50, .precision 50].foldl
      (step shared (fun _ x => x) 0 [1] [0]) ⟨fresh shared 0 16, none⟩) 0 = some (50, 16, 50) := by
  decide

/-- Even when default precision and precision of the system are changed together: made at 50 digits and
first differentiated at 30, the constants stay at 30 digits, since the functions still have values of
50 digits. -/
theorem C131_late :
    constant ([.dflt 30, .differentiate, .dflt 50, .precision 50].foldl
      (step shared (fun _ x => x) 0 [1] [0]) ⟨fresh shared 0 50, none⟩) 0 = some (50, 30, 50) := by
  decide

/-- Non-vacuity: differentiated at 16, used at 50, at 30, differentiated again. -/
example : constant (([.differentiate, .use 50, .use 30, .differentiate] : List Act).flatMap Act.ops |>.foldl
      (step shared (fun _ x => x) 0 [1] [0]) ⟨fresh shared 0 16, none⟩) 0 = some (30, 30, 30) := by
  decide

/-! ### C132 -/

/-- C132: changing the precision of a system and evaluating it never accesses an element a matrix does
not have. -/
def C132_full : Prop :=
  ∀ (W : Type) (G : Graph W) (R : ℕ → W → W) (zero : W) (d : ℕ) (us : List (Use W)),
    (run G R (fresh G zero d) us).bad = false

/-- The coefficients are computed from rational ones, or there are none. -/
def Cell.Rational : Cell W → Prop
  | .lin _ r c _ _ => r = true ∨ c = []
  | _ => True

theorem prec_bad (G : Graph W) (R : ℕ → W → W) (p : ℕ) : ∀ (n i : ℕ) (s : St W),
    (∀ m, Below G i m → (G.cell m).Rational) → (precF G R p n i s).bad = s.bad := by
  intro n
  induction n with
  | zero => intro i s _; rfl
  | succ n ih =>
    have hl : ∀ (l : List ℕ) (s : St W), (∀ k ∈ l, ∀ m, Below G k m → (G.cell m).Rational) →
        (l.foldl (fun s j => precF G R p n j s) s).bad = s.bad := by
      intro l
      induction l with
      | nil => intro s _; rfl
      | cons k l ihl =>
        intro s h
        rw [List.foldl_cons, ihl _ fun k' hk' => h k' (by simp [hk']), ih k s (h k (by simp))]
    intro i s h
    have hk : ∀ k ∈ (G.cell i).kids, ∀ m, Below G k m → (G.cell m).Rational :=
      fun k hk m hm => h m (.step hk hm)
    have hi := h i (.refl i)
    cases hc : G.cell i with
    | var => simp only [precF, hc]; rfl
    | num c => simp only [precF, hc]; rfl
    | op f os =>
      simp only [precF, hc]
      exact hl os _ (by rw [hc] at hk; exact hk)
    | lin f r c vs e =>
      simp only [precF, hc]
      rw [hc] at hk hi
      rw [hl vs _ fun k hkv => hk k (by simp [Cell.kids, hkv])]
      rcases hi with rfl | rfl
      · simp [St.setPrec, St.put]
      · simp [St.setPrec, St.put]
    | handle e =>
      simp only [precF, hc]
      by_cases hp : (s.val i).2 = p
      · rw [if_pos hp]
      · rw [if_neg hp]
        exact ih e _ (hk e (by rw [hc]; simp [Cell.kids]))

theorem reset_bad (G : Graph W) : ∀ (n i : ℕ) (s : St W), (resetF G n i s).bad = s.bad := by
  intro n
  induction n with
  | zero => intro i s; rfl
  | succ n ih =>
    have hl : ∀ (l : List ℕ) (s : St W), (l.foldl (fun s j => resetF G n j s) s).bad = s.bad := by
      intro l
      induction l with
      | nil => intro s; rfl
      | cons k l ihl => intro s; rw [List.foldl_cons, ihl, ih]
    intro i s
    cases hc : G.cell i with
    | var => simp only [resetF, hc]; rfl
    | num c => simp only [resetF, hc]
    | op f os => simp only [resetF, hc]; rw [hl]; rfl
    | lin f r c vs e => simp only [resetF, hc]; rw [hl]; rfl
    | handle e => simp only [resetF, hc]; rw [ih]; rfl

theorem thread_bad {ev : ℕ → St W → MP W × St W} (h : ∀ i s, (ev i s).2.bad = s.bad) (l : List ℕ) :
    ∀ s, (thread ev l s).2.bad = s.bad := by
  induction l with
  | nil => intro s; rfl
  | cons a l ih => intro s; simp only [thread]; rw [ih, h]

theorem eval_bad (G : Graph W) : ∀ (n i : ℕ) (s : St W), (evalF G n i s).2.bad = s.bad := by
  intro n
  induction n with
  | zero => intro i s; rfl
  | succ n ih =>
    intro i s
    cases hc : G.cell i with
    | var => simp only [evalF, hc]
    | num c => simp only [evalF, hc]; by_cases hf : s.flag i = true <;> simp [hf, keep, St.put, St.mark]
    | op f os =>
      simp only [evalF, hc]
      by_cases hf : s.flag i = true
      · rw [if_pos hf]
      · rw [if_neg hf]; exact thread_bad ih os s
    | lin f r c vs e =>
      simp only [evalF, hc]
      by_cases hf : s.flag i = true
      · rw [if_pos hf]
      · rw [if_neg hf]; exact thread_bad ih (vs ++ [e]) s
    | handle e =>
      simp only [evalF, hc]
      by_cases hf : s.flag i = true
      · rw [if_pos hf]
      · rw [if_neg hf]; exact ih e s

/-- What holds: if no linear product of the systems used was made from given coefficients. -/
theorem C132_partial (G : Graph W) (R : ℕ → W → W) (zero : W) (d : ℕ) (us : List (Use W))
    (hr : ∀ u ∈ us, ∀ m, Under G u.roots m → (G.cell m).Rational) :
    (run G R (fresh G zero d) us).bad = false := by
  have : ∀ (us : List (Use W)) (s : St W), (∀ u ∈ us, ∀ m, Under G u.roots m → (G.cell m).Rational) →
      (run G R s us).bad = s.bad := by
    intro us
    induction us with
    | nil => intro s _; rfl
    | cons u us ih =>
      intro s h
      have h1 : ∀ (l : List ℕ) (s : St W), (∀ i ∈ l, i ∈ u.roots) →
          (l.foldl (fun s i => precision G R u.p i s) s).bad = s.bad := by
        intro l
        induction l with
        | nil => intro s _; rfl
        | cons a l ihl =>
          intro s hs
          rw [List.foldl_cons, ihl _ fun i hi => hs i (by simp [hi])]
          exact prec_bad G R u.p _ a s fun m hm => h u (by simp) m ⟨a, hs a (by simp), hm⟩
      have h2 : ∀ (l : List ℕ) (s : St W), (l.foldl (fun s i => reset G i s) s).bad = s.bad := by
        intro l
        induction l with
        | nil => intro s; rfl
        | cons a l ihl => intro s; rw [List.foldl_cons, ihl]; exact reset_bad G _ a s
      have h3 : (use G R s u).2.bad = s.bad := by
        simp only [use]
        rw [thread_bad (ev := eval G) fun i s => eval_bad G (i + 1) i s]
        rw [h2]
        exact h1 u.roots _ fun _ h => h
      exact (ih _ fun v hv => h v (by simp [hv])).trans h3
  exact this us _ hr

/-- The code violates C132: a linear product made from a matrix of coefficients has no rational
coefficients, but they are read whenever the precision changes. -/
theorem C132_refuted : ¬ C132_full := by
  intro H
  have h := H ℕ (linear false) (fun _ x => x) 0 16 [⟨50, [2], fun _ => 50⟩]
  revert h
  decide

/-- Non-vacuity: the same with rational coefficients. -/
example : (run (linear true) (fun _ x => x) (fresh (linear true) 0 16)
    [⟨50, [2], fun _ => 50⟩, ⟨30, [2], fun _ => 50⟩]).bad = false :=
  C132_partial _ _ _ _ _ (by
    intro u _ m _
    match m with
    | 1 => exact .inl rfl
    | 0 | 2 => trivial
    | _ + 3 => trivial)

/-! ### C133 -/

/-- C133: a system assumes uniform precision exactly if that was asked for last, by
`PleaseAssumeUniformPrecision`, `DontAssumeUniformPrecision` or `AssumeUniformPrecision`. -/
def C133_full : Prop :=
  ∀ (p : ℕ) (ops : List FlagOp), (ops.foldl FlagOp.run { prec := p }).assuming = asked ops

/-- What holds: the flag is never set, however often it was asked for (so it agrees with what was asked
for last if that was not to assume), and every call of `precision` is passed on to all parts of the
system. Missing: that the flag can be set. -/
theorem C133_partial (p : ℕ) (ops : List FlagOp) :
    (ops.foldl FlagOp.run { prec := p }).assuming = false ∧
    (ops.foldl FlagOp.run { prec := p }).passedOn
      = ops.countP fun o => match o with | .precision _ => true | _ => false := by
  have : ∀ (ops : List FlagOp) (s : Flagged), s.assuming = false →
      (ops.foldl FlagOp.run s).assuming = false ∧
      (ops.foldl FlagOp.run s).passedOn
        = s.passedOn + ops.countP fun o => match o with | .precision _ => true | _ => false := by
    intro ops
    induction ops with
    | nil => intro s h; exact ⟨h, rfl⟩
    | cons o ops ih =>
      intro s h
      rw [List.foldl_cons, List.countP_cons]
      cases o with
      | please => exact ih (assumeUniform true s) rfl
      | dont => exact ih (assumeUniform false s) rfl
      | assume b => exact ih (assumeUniform b s) rfl
      | precision p =>
        have e : FlagOp.run s (.precision p) = { s with prec := p, passedOn := s.passedOn + 1 } := by
          simp [FlagOp.run, h]
        rw [e]
        obtain ⟨a, b⟩ := ih { s with prec := p, passedOn := s.passedOn + 1 } h
        refine ⟨a, b.trans ?_⟩
        simp only [if_true]
        exact Nat.add_right_comm _ _ _
  simpa using this ops { prec := p } rfl

/-- The code violates C133: after `PleaseAssumeUniformPrecision()` the flag is false. -/
theorem C133_refuted : ¬ C133_full := by
  intro H
  have := H 16 [.please]
  cases this

/-- Non-vacuity. -/
example : ([.precision 30, .please, .precision 30, .precision 30].foldl FlagOp.run
    { prec := 16 }).passedOn = 3 := (C133_partial 16 _).2

end B2.Tree.Prec
