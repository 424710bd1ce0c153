import Verif.SLP.Proof
import Mathlib.Algebra.BigOperators.Group.Finset.Basic
import Mathlib.Algebra.Order.BigOperators.Group.Finset

/-! # How many instructions the compiler emits (lemmas for C16)

No assumption on the order of functions or on foreign variables here. -/

namespace B2.SLP

set_option linter.unusedSectionVars false

variable {C : Type} [One C]

/-- Number of operand edges of a node. -/
def edges (G : Graph C) (i : ℕ) : ℕ := (G.cell i).operands.length

/-- Counting invariant: `vis` are the operator nodes compiled so far, `k` the instructions
already emitted for the node being compiled. -/
structure Cnt (G : Graph C) (R : ℕ → Prop) (N : ℕ) (P : List ℕ) (s : CState C) (vis : List ℕ)
    (k : ℕ) : Prop where
  nodup : vis.Nodup
  mem : ∀ i ∈ vis, s.loc i ≠ none ∧ i ∉ P ∧ R i
  count : s.code.length ≤ (vis.map (edges G)).sum + k
  inLe : N ≤ s.next
  outLt : ∀ c ∈ s.code, c.out < s.next ∧ N ≤ c.out
  outNodup : (s.code.map Instr.out).Nodup
  num : ∀ p ∈ s.nums, p.2 < s.next ∧ N ≤ p.2 ∧ ∀ c ∈ s.code, c.out ≠ p.2
  numNodup : (s.nums.map Prod.snd).Nodup
  pend : ∀ p ∈ P, ∃ l, s.loc p = some l ∧ l < s.next ∧ N ≤ l ∧ (∀ c ∈ s.code, c.out ≠ l) ∧
    ∀ q ∈ s.nums, q.2 ≠ l
  inj : ∀ p ∈ P, ∀ q ∈ P, s.loc p = s.loc q → p = q

variable {G : Graph C} {R : ℕ → Prop} {N : ℕ} {P vis : List ℕ} {k : ℕ} {s : CState C}

theorem Cnt.emit (h : Cnt G R N P s vis k) (c : Instr) (hc : c.out = s.next) :
    Cnt G R N P (s.emit c).bump vis (k + 1) where
  nodup := h.nodup
  mem := h.mem
  count := by
    have := h.count
    simp only [CState.emit, CState.bump, List.length_append, List.length_singleton]; omega
  inLe := Nat.le_succ_of_le h.inLe
  outLt c' hc' := by
    simp only [CState.emit, CState.bump, List.mem_append, List.mem_singleton] at hc' ⊢
    rcases hc' with h1 | rfl
    · have := h.outLt c' h1; omega
    · have := h.inLe; omega
  outNodup := by
    simp only [CState.emit, CState.bump, List.map_append, List.map_cons, List.map_nil]
    rw [List.nodup_append]
    refine ⟨h.outNodup, by simp, ?_⟩
    intro a ha b hb
    simp only [List.mem_singleton] at hb
    obtain ⟨d, hd, rfl⟩ := List.mem_map.1 ha
    have := (h.outLt d hd).1
    omega
  num p hp := by
    obtain ⟨h1, h2, h3⟩ := h.num p hp
    refine ⟨Nat.lt_succ_of_lt h1, h2, fun d hd => ?_⟩
    simp only [CState.emit, CState.bump, List.mem_append, List.mem_singleton] at hd
    rcases hd with hd | rfl
    · exact h3 d hd
    · omega
  numNodup := h.numNodup
  pend p hp := by
    obtain ⟨l, h1, h2, h3, h4, h5⟩ := h.pend p hp
    refine ⟨l, h1, Nat.lt_succ_of_lt h2, h3, fun d hd => ?_, h5⟩
    simp only [CState.emit, CState.bump, List.mem_append, List.mem_singleton] at hd
    rcases hd with hd | rfl
    · exact h4 d hd
    · omega
  inj := h.inj

theorem Cnt.addNum (h : Cnt G R N P s vis k) (c : C) : Cnt G R N P (s.addNum c) vis k where
  nodup := h.nodup
  mem := h.mem
  count := h.count
  inLe := Nat.le_succ_of_le h.inLe
  outLt c' hc' := by have := h.outLt c' hc'; simp only [CState.addNum]; omega
  outNodup := h.outNodup
  num p hp := by
    simp only [CState.addNum, List.mem_append, List.mem_singleton] at hp ⊢
    rcases hp with hp | rfl
    · obtain ⟨h1, h2, h3⟩ := h.num p hp
      exact ⟨by omega, h2, h3⟩
    · exact ⟨by omega, h.inLe, fun c' hc' => by have := h.outLt c' hc'; omega⟩
  numNodup := by
    simp only [CState.addNum, List.map_append, List.map_cons, List.map_nil]
    rw [List.nodup_append]
    refine ⟨h.numNodup, by simp, ?_⟩
    intro a ha b hb
    simp only [List.mem_singleton] at hb
    obtain ⟨d, hd, rfl⟩ := List.mem_map.1 ha
    have := (h.num d hd).1
    omega
  pend p hp := by
    obtain ⟨l, h1, h2, h3, h4, h5⟩ := h.pend p hp
    refine ⟨l, h1, Nat.lt_succ_of_lt h2, h3, h4, fun q hq => ?_⟩
    simp only [CState.addNum, List.mem_append, List.mem_singleton] at hq
    rcases hq with hq | rfl
    · exact h5 q hq
    · simp only; omega
  inj := h.inj

theorem Cnt.setLoc (h : Cnt G R N P s vis k) {i l : ℕ} (hn : s.loc i = none) :
    Cnt G R N P (s.setLoc i l) vis k := by
  have hP : i ∉ P := fun hp => by
    obtain ⟨l, h1, -⟩ := h.pend i hp
    rw [hn] at h1; cases h1
  refine ⟨h.nodup, fun j hj => ⟨?_, (h.mem j hj).2⟩, h.count, h.inLe, h.outLt, h.outNodup, h.num,
    h.numNodup, fun p hp => ?_, fun p hp q hq => ?_⟩
  · simp only [CState.setLoc]
    split_ifs
    · simp
    · exact (h.mem j hj).1
  · have : p ≠ i := fun e => hP (e ▸ hp)
    simpa [CState.setLoc, this] using h.pend p hp
  · have h1 : p ≠ i := fun e => hP (e ▸ hp)
    have h2 : q ≠ i := fun e => hP (e ▸ hq)
    simpa [CState.setLoc, h1, h2] using h.inj p hp q hq

theorem Cnt.getLoc (h : Cnt G R N P s vis k) (i : ℕ) : Cnt G R N P (s.getLoc i).2 vis k := by
  unfold CState.getLoc
  split
  · exact h
  · rename_i hn; exact h.setLoc hn

theorem Cnt.intIndex (h : Cnt G R N P s vis k) (z : ℤ) :
    Cnt G R N P (s.intIndex z).2 vis k := by
  unfold CState.intIndex
  split
  · exact h
  · exact ⟨h.nodup, h.mem, h.count, h.inLe, h.outLt, h.outNodup, h.num, h.numNodup, h.pend, h.inj⟩

theorem Cnt.close (h : Cnt G R N P s vis k) {i : ℕ} (hi : i ∉ vis) (hl : s.loc i ≠ none)
    (hP : i ∉ P) (hR : R i) (hk : k ≤ edges G i) : Cnt G R N P s (i :: vis) 0 where
  nodup := List.nodup_cons.2 ⟨hi, h.nodup⟩
  mem j hj := by
    rcases List.mem_cons.1 hj with rfl | hj
    · exact ⟨hl, hP, hR⟩
    · exact h.mem j hj
  count := by
    have := h.count
    simp only [List.map_cons, List.sum_cons]; omega
  inLe := h.inLe
  outLt := h.outLt
  outNodup := h.outNodup
  num := h.num
  numNodup := h.numNodup
  pend := h.pend
  inj := h.inj

theorem Cnt.chain (opT opF : BinOp) (r : List (Bool × ℕ)) : ∀ (prev k : ℕ) (s : CState C),
    Cnt G R N P s vis k → Cnt G R N P (chain opT opF prev r s).2 vis (k + r.length) := by
  induction r with
  | nil => intro prev k s h; exact h
  | cons a r ih =>
    intro prev k s h
    simp only [SLP.chain, List.length_cons]
    have := ih s.next (k + 1) _ (h.emit (.bin (if a.1 then opT else opF) prev a.2 s.next) rfl)
    rwa [show k + (r.length + 1) = k + 1 + r.length by omega]

theorem Cnt.sumCode {r : List (Bool × ℕ)} {q : ℕ × CState C} (h : Cnt G R N P s vis 0)
    (hq : SLP.sumCode r s = some q) : ∃ k, k ≤ r.length ∧ Cnt G R N P q.2 vis k := by
  match r, hq with
  | (true, l) :: r, hq =>
    simp only [SLP.sumCode, Option.some.injEq] at hq; subst hq
    exact ⟨_, by simp, h.chain .add .sub r l 0⟩
  | (false, l) :: r, hq =>
    simp only [SLP.sumCode, Option.some.injEq] at hq; subst hq
    exact ⟨_, by simp; omega, (h.emit (.un .neg l s.next) rfl).chain .add .sub r s.next 1⟩

theorem Cnt.multCode {r : List (Bool × ℕ)} {q : ℕ × CState C} (h : Cnt G R N P s vis 0)
    (hq : SLP.multCode r s = some q) : ∃ k, k ≤ r.length ∧ Cnt G R N P q.2 vis k := by
  match r, hq with
  | (true, l) :: r, hq =>
    simp only [SLP.multCode, Option.some.injEq] at hq; subst hq
    exact ⟨_, by simp, h.chain .mul .div r l 0⟩
  | (false, l) :: r, hq =>
    simp only [SLP.multCode, Option.some.injEq] at hq; subst hq
    exact ⟨_, by simp; omega,
      ((h.addNum 1).emit (.bin .div s.next l (s.addNum 1).next) rfl).chain .mul .div r _ 1⟩

/-- What visiting an unrecorded node does to the counts. -/
def VisitCnt (G : Graph C) (R : ℕ → Prop) (N : ℕ) (P : List ℕ) (i : ℕ) : Prop :=
  ∀ (s s' : CState C) vis, R i → Cnt G R N P s vis 0 → s.loc i = none →
    visit G i s = some s' → ∃ vis', Cnt G R N P s' vis' 0

theorem ensure_cnt {j : ℕ} (hok : VisitCnt G R N P j) (hR : R j) {s s' : CState C} {vis}
    (hc : Cnt G R N P s vis 0) (h : ensure (visit G) j s = some s') :
    ∃ vis', Cnt G R N P s' vis' 0 := by
  unfold ensure at h
  split at h
  · simp only [Option.some.injEq] at h; subst h; exact ⟨vis, hc⟩
  · rename_i hl; exact hok s s' vis hR hc hl h

theorem gather_cnt (js : List ℕ) (hok : ∀ j ∈ js, VisitCnt G R N P j) (hR : ∀ j ∈ js, R j) :
    ∀ (s : CState C) r vis, Cnt G R N P s vis 0 → gather (visit G) js s = some r →
      (∃ vis', Cnt G R N P r.2 vis' 0) ∧ r.1.length = js.length := by
  induction js with
  | nil =>
    intro s r vis hc h
    simp only [gather, Option.some.injEq] at h
    subst h; exact ⟨⟨vis, hc⟩, rfl⟩
  | cons j js ih =>
    intro s r vis hc h
    simp only [gather, Option.bind_eq_bind, Option.bind_eq_some_iff, Option.some.injEq] at h
    obtain ⟨s1, h1, q, h2, rfl⟩ := h
    obtain ⟨vis1, hc1⟩ := ensure_cnt (hok j (by simp)) (hR j (by simp)) hc h1
    obtain ⟨h3, h4⟩ := ih (fun j' hj' => hok j' (by simp [hj'])) (fun j' hj' => hR j' (by simp [hj']))
      _ q _ (hc1.getLoc j) h2
    exact ⟨h3, by simp [h4]⟩

theorem Cnt.not_vis (h : Cnt G R N P s vis k) {i : ℕ} (hn : s.loc i = none) : i ∉ vis :=
  fun hi => (h.mem i hi).1 hn

theorem Cnt.not_pend (h : Cnt G R N P s vis k) {i : ℕ} (hn : s.loc i = none) : i ∉ P :=
  fun hi => by
    obtain ⟨l, h1, -⟩ := h.pend i hi
    rw [hn] at h1; cases h1

theorem visit_cnt (G : Graph C) (R : ℕ → Prop) (hclosed : ∀ i, R i → ∀ j ∈ (G.cell i).operands, R j)
    (N : ℕ) (P : List ℕ) (i : ℕ) : VisitCnt G R N P i := by
  induction i using Nat.strong_induction_on with
  | _ i ih =>
  intro s s' vis hR hcnt hn h
  have hop : ∀ j ∈ (G.cell i).operands, j < i := G.acyclic i
  have hRj := hclosed i hR
  rw [visit_eq] at h
  unfold visitWith at h
  cases hc : G.cell i with
  | var => simp only [hc, Option.some.injEq] at h; subst h; exact ⟨vis, hcnt⟩
  | num c =>
    simp only [hc, Option.some.injEq] at h; subst h
    exact ⟨vis, (hcnt.addNum c).setLoc hn⟩
  | other _ => simp [hc] at h
  | fn n =>
    have hm : n ∈ (G.cell i).operands := by simp [hc, Cell.operands]
    simp only [hc, Option.bind_eq_bind, Option.bind_eq_some_iff, Option.some.injEq] at h
    obtain ⟨s1, h1, h2⟩ := h
    obtain ⟨vis1, hc1⟩ := ensure_cnt (ih n (hop n hm)) (hRj n hm) hcnt h1
    have hn1 : (s1.getLoc n).2.loc i = none := by
      rw [getLoc_above _ _ _ (hop n hm), ensure_above (noSelf G n) h1 i (hop n hm), hn]
    simp only [hn1] at h2
    subst h2
    have hc2 := hc1.getLoc n
    have hc3 := (hc2.emit (.assign (s1.getLoc n).1 (s1.getLoc n).2.next) rfl).setLoc (i := i)
      (l := (s1.getLoc n).2.next) hn1
    exact ⟨_, hc3.close (hc2.not_vis hn1) (by simp [CState.setLoc]) (hc2.not_pend hn1) hR
      (by simp [edges, hc, Cell.operands])⟩
  | un f n =>
    have hm : n ∈ (G.cell i).operands := by simp [hc, Cell.operands]
    simp only [hc, Option.bind_eq_bind, Option.bind_eq_some_iff, Option.some.injEq] at h
    obtain ⟨s1, h1, rfl⟩ := h
    obtain ⟨vis1, hc1⟩ := ensure_cnt (ih n (hop n hm)) (hRj n hm) hcnt h1
    have hn1 : (s1.getLoc n).2.loc i = none := by
      rw [getLoc_above _ _ _ (hop n hm), ensure_above (noSelf G n) h1 i (hop n hm), hn]
    have hc2 := hc1.getLoc n
    have hc3 := (hc2.emit (.un f (s1.getLoc n).1 (s1.getLoc n).2.next) rfl).setLoc (i := i)
      (l := (s1.getLoc n).2.next) hn1
    exact ⟨_, hc3.close (hc2.not_vis hn1) (by simp [CState.setLoc]) (hc2.not_pend hn1) hR
      (by simp [edges, hc, Cell.operands])⟩
  | ipow n z =>
    have hm : n ∈ (G.cell i).operands := by simp [hc, Cell.operands]
    simp only [hc, Option.bind_eq_bind, Option.bind_eq_some_iff, Option.some.injEq] at h
    obtain ⟨s1, h1, rfl⟩ := h
    obtain ⟨vis1, hc1⟩ := ensure_cnt (ih n (hop n hm)) (hRj n hm) hcnt h1
    have hn1 : ((s1.getLoc n).2.intIndex z).2.loc i = none := by
      rw [intIndex_loc, getLoc_above _ _ _ (hop n hm),
        ensure_above (noSelf G n) h1 i (hop n hm), hn]
    have hc2 := (hc1.getLoc n).intIndex z
    have hc3 := (hc2.emit (.ipow (s1.getLoc n).1 ((s1.getLoc n).2.intIndex z).1
      ((s1.getLoc n).2.intIndex z).2.next) rfl).setLoc (i := i)
      (l := ((s1.getLoc n).2.intIndex z).2.next) hn1
    exact ⟨_, hc3.close (hc2.not_vis hn1) (by simp [CState.setLoc]) (hc2.not_pend hn1) hR
      (by simp [edges, hc, Cell.operands])⟩
  | pow b e =>
    have hb : b ∈ (G.cell i).operands := by simp [hc, Cell.operands]
    have he : e ∈ (G.cell i).operands := by simp [hc, Cell.operands]
    simp only [hc, Option.bind_eq_bind, Option.bind_eq_some_iff, Option.some.injEq] at h
    obtain ⟨s1, h1, s2, h2, rfl⟩ := h
    obtain ⟨vis1, hc1⟩ := ensure_cnt (ih b (hop b hb)) (hRj b hb) hcnt h1
    obtain ⟨vis2, hc2⟩ := ensure_cnt (ih e (hop e he)) (hRj e he) hc1 h2
    have hn1 : ((s2.getLoc b).2.getLoc e).2.loc i = none := by
      rw [getLoc_above _ _ _ (hop e he), getLoc_above _ _ _ (hop b hb),
        ensure_above (noSelf G e) h2 i (hop e he), ensure_above (noSelf G b) h1 i (hop b hb), hn]
    have hc2 := (hc2.getLoc b).getLoc e
    have hc3 := (hc2.emit (.bin .pow (s2.getLoc b).1 ((s2.getLoc b).2.getLoc e).1
      ((s2.getLoc b).2.getLoc e).2.next) rfl).setLoc (i := i)
      (l := ((s2.getLoc b).2.getLoc e).2.next) hn1
    exact ⟨_, hc3.close (hc2.not_vis hn1) (by simp [CState.setLoc]) (hc2.not_pend hn1) hR
      (by simp [edges, hc, Cell.operands])⟩
  | sum ops =>
    have hm : ∀ j ∈ ops.map Prod.snd, j ∈ (G.cell i).operands := by
      intro j hj; rw [hc]; exact hj
    simp only [hc, Option.bind_eq_bind, Option.bind_eq_some_iff, Option.some.injEq] at h
    obtain ⟨p, h1, q, h2, rfl⟩ := h
    obtain ⟨⟨vis1, hc1⟩, hlen⟩ := gather_cnt (ops.map Prod.snd)
      (fun j hj => ih j (hop j (hm j hj))) (fun j hj => hRj j (hm j hj)) s p vis hcnt h1
    have hn1 : p.2.loc i = none := by
      rw [gather_above (ops.map Prod.snd) i (fun j hj => hop j (hm j hj))
        (fun j _ => noSelf G j) s p h1 i le_rfl]
      exact hn
    obtain ⟨k, hk, hc2⟩ := hc1.sumCode h2
    have hn2 : q.2.loc i = none := by rw [sumCode_loc h2]; exact hn1
    refine ⟨_, (hc2.setLoc hn2).close (hc2.not_vis hn2) (by simp [CState.setLoc])
      (hc2.not_pend hn2) hR ?_⟩
    simp only [List.length_zip, List.length_map] at hk hlen
    simp only [edges, hc, Cell.operands, List.length_map]
    omega
  | mult ops =>
    have hm : ∀ j ∈ ops.map Prod.snd, j ∈ (G.cell i).operands := by
      intro j hj; rw [hc]; exact hj
    simp only [hc, Option.bind_eq_bind, Option.bind_eq_some_iff, Option.some.injEq] at h
    obtain ⟨p, h1, q, h2, rfl⟩ := h
    obtain ⟨⟨vis1, hc1⟩, hlen⟩ := gather_cnt (ops.map Prod.snd)
      (fun j hj => ih j (hop j (hm j hj))) (fun j hj => hRj j (hm j hj)) s p vis hcnt h1
    have hn1 : p.2.loc i = none := by
      rw [gather_above (ops.map Prod.snd) i (fun j hj => hop j (hm j hj))
        (fun j _ => noSelf G j) s p h1 i le_rfl]
      exact hn
    obtain ⟨k, hk, hc2⟩ := hc1.multCode h2
    have hn2 : q.2.loc i = none := by rw [multCode_loc h2]; exact hn1
    refine ⟨_, (hc2.setLoc hn2).close (hc2.not_vis hn2) (by simp [CState.setLoc])
      (hc2.not_pend hn2) hR ?_⟩
    simp only [List.length_zip, List.length_map] at hk hlen
    simp only [edges, hc, Cell.operands, List.length_map]
    omega

/-- `ensure`/`getLoc` keep recorded locations. -/
theorem getLoc_loc {s : CState C} {j k l : ℕ} (h : s.loc k = some l) :
    (s.getLoc j).2.loc k = some l := by
  unfold CState.getLoc
  split
  · exact h
  · rename_i hn
    have : k ≠ j := by rintro rfl; rw [hn] at h; cases h
    simp [CState.setLoc, this, h]

theorem visit_top_cnt (hclosed : ∀ i, R i → ∀ j ∈ (G.cell i).operands, R j) {f n : ℕ}
    {rest vis : List ℕ} (hnd : f ∉ rest) (hf : G.cell f = .fn n) (hR : R f)
    (s s' : CState C) (hcnt : Cnt G R N (f :: rest) s vis 0) (h : visit G f s = some s') :
    ∃ vis', Cnt G R N rest s' vis' 0 := by
  have hm : n ∈ (G.cell f).operands := by simp [hf, Cell.operands]
  rw [visit_eq] at h
  unfold visitWith at h
  simp only [hf, Option.bind_eq_bind, Option.bind_eq_some_iff, Option.some.injEq] at h
  obtain ⟨s1, h1, h2⟩ := h
  obtain ⟨vis1, hc0⟩ := ensure_cnt (visit_cnt G R hclosed N (f :: rest) n) (hclosed f hR n hm)
    hcnt h1
  have hc1 := hc0.getLoc n
  obtain ⟨lf, p1, p2, p3, p4, p5⟩ := hc1.pend f (by simp)
  simp only [p1] at h2
  subst h2
  set l := (s1.getLoc n).1
  set s2 := (s1.getLoc n).2
  have hfv : f ∉ vis1 := fun hv => (hc1.mem f hv).2.1 (by simp)
  refine ⟨f :: vis1, ?_⟩
  refine ⟨List.nodup_cons.2 ⟨hfv, hc1.nodup⟩, ?_, ?_, hc1.inLe, ?_, ?_, ?_, hc1.numNodup, ?_, ?_⟩
  · intro j hj
    rcases List.mem_cons.1 hj with rfl | hj
    · exact ⟨by simp [CState.emit, p1], hnd, hR⟩
    · obtain ⟨a, b, c⟩ := hc1.mem j hj
      exact ⟨a, fun hr => b (by simp [hr]), c⟩
  · have := hc1.count
    simp only [CState.emit, List.length_append, List.length_singleton, List.map_cons, List.sum_cons,
      edges, hf, Cell.operands] at this ⊢
    omega
  · intro c hc
    simp only [CState.emit, List.mem_append, List.mem_singleton] at hc
    rcases hc with hc | rfl
    · exact hc1.outLt c hc
    · exact ⟨p2, p3⟩
  · simp only [CState.emit, List.map_append, List.map_cons, List.map_nil]
    rw [List.nodup_append]
    refine ⟨hc1.outNodup, by simp, ?_⟩
    intro a ha b hb
    simp only [List.mem_singleton, Instr.out] at hb
    obtain ⟨d, hd, rfl⟩ := List.mem_map.1 ha
    rw [hb]; exact p4 d hd
  · intro p hp
    obtain ⟨a, b, c⟩ := hc1.num p hp
    refine ⟨a, b, fun d hd => ?_⟩
    simp only [CState.emit, List.mem_append, List.mem_singleton] at hd
    rcases hd with hd | rfl
    · exact c d hd
    · exact fun e => p5 p hp e.symm
  · intro p hp
    obtain ⟨l', a, b, c, d, e⟩ := hc1.pend p (by simp [hp])
    refine ⟨l', a, b, c, fun g hg => ?_, e⟩
    simp only [CState.emit, List.mem_append, List.mem_singleton] at hg
    rcases hg with hg | rfl
    · exact d g hg
    · simp only [Instr.out]
      rintro rfl
      have := hc1.inj p (by simp [hp]) f (by simp) (a.trans p1.symm)
      exact hnd (this ▸ hp)
  · exact fun p hp q hq => hc1.inj p (by simp [hp]) q (by simp [hq])

theorem visitAll_cnt (hclosed : ∀ i, R i → ∀ j ∈ (G.cell i).operands, R j) (tops : List ℕ) :
    ∀ (rest vis : List ℕ) (s s' : CState C), (tops ++ rest).Nodup →
    (∀ f ∈ tops, ∃ n, G.cell f = .fn n) → (∀ f ∈ tops, R f) →
    Cnt G R N (tops ++ rest) s vis 0 → visitAll G tops s = some s' →
    ∃ vis', Cnt G R N rest s' vis' 0 := by
  induction tops with
  | nil =>
    intro rest vis s s' _ _ _ hc h
    simp only [visitAll, List.foldlM_nil, Option.pure_def, Option.some.injEq] at h
    subst h
    exact ⟨vis, hc⟩
  | cons f tops ih =>
    intro rest vis s s' hnd hfn hR hc h
    simp only [visitAll, List.foldlM_cons, Option.bind_eq_bind, Option.bind_eq_some_iff] at h
    obtain ⟨s1, h1, h2⟩ := h
    obtain ⟨n, hn⟩ := hfn f (by simp)
    rw [List.cons_append, List.nodup_cons] at hnd
    obtain ⟨vis1, hc1⟩ := visit_top_cnt hclosed hnd.1 hn (hR f (by simp)) s s1 hc h1
    exact ih rest vis1 s1 s' hnd.2 (fun g hg => hfn g (by simp [hg]))
      (fun g hg => hR g (by simp [hg])) hc1 h2

end B2.SLP
