import Verif.Cont.Limits
import Verif.Cont.Solve
import Verif.Cont.Near
import Verif.Track.PropsJump

/-!
# Property C147: the random `γ`, and what the paths of a zero-dimensional solve lead to

Exact arithmetic. The homotopy of a solve, for almost every `γ`, has only nonsingular zeros at positive
times; through each of them there is exactly one path, these start at the start points, and every
nonsingular solution of the user's system is the end of one of them.
-/

namespace B2.Alg.Htp

open B2.Sys B2.Start B2.Cont B2.Predict B2.Track Set Filter Topology

/-- `H` is the function computed by `Eval(x, t)` of the system object `h` in `m` variables. -/
def Computes (simp : Node → Node) (w : World) (h m : ℕ) (H : (Fin m → ℂ) × ℂ → Fin m → ℂ) : Prop :=
  ∀ (x : Fin m → ℂ) (s : ℂ) (junk : List ℂ), junk.length = m →
    ∃ w', evalAtTime simp w h junk (List.ofFn x) s = some (List.ofFn (H (x, s)), w')

/-- `f` is the function computed by `Eval(x)` of the system object `i` in `m` variables. -/
def ComputesFun (simp : Node → Node) (w : World) (i m : ℕ) (f : (Fin m → ℂ) → Fin m → ℂ) : Prop :=
  ∀ (y : Fin m → ℂ) (junk : List ℂ), junk.length = m →
    ∃ w', evalAt simp w i junk (List.ofFn y) = some (List.ofFn (f y), w')

theorem Computes.unique {simp : Node → Node} {w : World} {h m : ℕ} {H H' : (Fin m → ℂ) × ℂ → Fin m → ℂ}
    (h1 : Computes simp w h m H) (h2 : Computes simp w h m H') : H = H' := by
  funext ⟨x, s⟩
  obtain ⟨_, e1⟩ := h1 x s (List.replicate m 0) (by simp)
  obtain ⟨_, e2⟩ := h2 x s (List.replicate m 0) (by simp)
  rw [e1, Option.some.injEq, Prod.mk.injEq] at e2
  exact List.ofFn_injective e2.1

theorem ComputesFun.unique {simp : Node → Node} {w : World} {i m : ℕ} {f f' : (Fin m → ℂ) → Fin m → ℂ}
    (h1 : ComputesFun simp w i m f) (h2 : ComputesFun simp w i m f') : f = f' := by
  funext x
  obtain ⟨_, e1⟩ := h1 x (List.replicate m 0) (by simp)
  obtain ⟨_, e2⟩ := h2 x (List.replicate m 0) (by simp)
  rw [e1, Option.some.injEq, Prod.mk.injEq] at e2
  exact List.ofFn_injective e2.1

/-- What is asked of the other random choices: the constants of the start system are nonzero, and the
random patch has no start point at infinity (it is not orthogonal to `(1, ζ)` for the solutions `ζ` of
`ζ_j ^ d_j = r_j`). The user's functions are not constant. -/
structure Generic (w : World) (i : ℕ) (g : List Var) (r : Choices) : Prop where
  nonempty : g ≠ []
  degrees : ∀ n ∈ w.roots (w.objs i), 0 < degG w.vals g n
  constants : ∀ j < g.length, ratValue (r.rand j) ≠ 0
  patch : ∀ ζ : Fin g.length → ℂ, (∀ j, ζ j ^ (degsOf w i g).getD j 0 = ratValue (r.rand j)) →
    Patch.dot (1 :: List.ofFn ζ) ((List.range (g.length + 1)).map (r.coef 0)) ≠ 0

/-- `x` is the start point with number `index`, generated by the start system object `k` in `w'` for the
user's system `i` in `w`. -/
def IsStart (w w' : World) (i k : ℕ) (g : List Var) (r : Choices) (index : ℕ)
    (x : Fin (g.length + 1) → ℂ) : Prop :=
  startPoint (w'.objs k) (degsOf w i g) ((List.range g.length).map r.rand) index = some (List.ofFn x)

/-- What is wanted of the homotopy `H` of a solve, `w` being the state before the setup and `w'` after. -/
structure RegularSolve (simp : Node → Node) (w w' : World) (i k h : ℕ) (g : List Var) (r : Choices)
    (H : (Fin (g.length + 1) → ℂ) × ℂ → Fin (g.length + 1) → ℂ) : Prop where
  /-- the homotopy is analytic -/
  analytic : ∀ q, AnalyticAt ℂ H q
  /-- all its zeros at times in `(0, 1]` are nonsingular -/
  nonsingular : ∀ s : ℝ, s ∈ Ioc (0 : ℝ) 1 → ∀ x, H (x, (s : ℂ)) = 0 → IsUnit (jacV H (x, (s : ℂ)))
  /-- its zeros at time 1 are exactly the start points -/
  starts : ∀ x, H (x, 1) = 0 ↔ ∃ index < (degsOf w i g).prod, IsStart w w' i k g r index x
  /-- every number below the product of the degrees gives a start point, and different numbers different ones -/
  numbered : ∀ index < (degsOf w i g).prod, ∃ x, IsStart w w' i k g r index x
  distinct : ∀ a b x, IsStart w w' i k g r a x → IsStart w w' i k g r b x → a = b
  /-- dehomogenizing divides by the first coordinate -/
  dehomogenizes : ∀ x : Fin (g.length + 1) → ℂ,
    (w'.objs h).vs.dehomogenize (List.ofFn x) = some (List.ofFn fun j : Fin g.length => x j.succ / x 0)
  /-- through every zero at a time in `(0, 1]` there is a continuous path of zeros over `(0, 1]` -/
  through : ∀ s : ℝ, s ∈ Ioc (0 : ℝ) 1 → ∀ x, H (x, (s : ℂ)) = 0 → ∃ y, OpenPath H y ∧ y s = x
  /-- paths do not meet -/
  disjoint : ∀ y₁ y₂, OpenPath H y₁ → OpenPath H y₂ → ∀ s : ℝ, s ∈ Ioc (0 : ℝ) 1 → y₁ s = y₂ s →
    ∀ s' : ℝ, s' ∈ Ioc (0 : ℝ) 1 → y₁ s' = y₂ s'
  /-- every nonsingular solution of the user's system (not at infinity for the patch) is the end of a
  path, nonsingular all along, that starts at a start point -/
  reached : ∀ f, ComputesFun simp w i g.length f → ∀ y, f y = 0 → IsUnit (fderiv ℂ f y) →
    Patch.dot (1 :: List.ofFn y) ((List.range (g.length + 1)).map (r.coef 0)) ≠ 0 →
    ∃ Y index, NonsingularPath H 1 0 Y ∧ index < (degsOf w i g).prod ∧ IsStart w w' i k g r index (Y 1) ∧
      Y 0 0 ≠ 0 ∧ (w'.objs h).vs.dehomogenize (List.ofFn (Y 0)) = some (List.ofFn y)
  /-- from one start point at most one end is reached, and each nonsingular end from one start point only -/
  oneEnd : ∀ Y Y', NonsingularPath H 1 0 Y → NonsingularPath H 1 0 Y' → Y 1 = Y' 1 → Y 0 = Y' 0
  oneStart : ∀ Y Y', NonsingularPath H 1 0 Y → NonsingularPath H 1 0 Y' → Y 0 = Y' 0 → Y 1 = Y' 1
  /-- when the homogenized target has no zero at infinity for the patch (at which the last component, the
  patch, would be `-1`): at complex times near 0 the zeros are bounded, and nonsingular except perhaps at
  time 0 itself -/
  near : (∀ x, x ≠ 0 → (∀ j : Fin g.length, H (x, 0) j.castSucc = 0) → H (x, 0) (Fin.last _) ≠ -1) →
    ∃ ρ, Punctured H ρ
  /-- every finite zero at time 0 is, dehomogenized, a solution of the user's system -/
  ends : ∀ f, ComputesFun simp w i g.length f → ∀ x, H (x, 0) = 0 → x 0 ≠ 0 → f (fun j => x j.succ / x 0) = 0
  /-- when the homogenized target has no zero at infinity for the patch: every solution of the user's
  system, singular or not, is a zero at time 0, dehomogenized -/
  solutions : (∀ x, x ≠ 0 → (∀ j : Fin g.length, H (x, 0) j.castSucc = 0) → H (x, 0) (Fin.last _) ≠ -1) →
    ∀ f, ComputesFun simp w i g.length f → ∀ y, f y = 0 → ∃ x, H (x, 0) = 0 ∧ x 0 ≠ 0 ∧ ∀ j, x j.succ / x 0 = y j
  /-- and every zero at time 0, singular or not, is the limit of a path -/
  limits : (∀ x, x ≠ 0 → (∀ j : Fin g.length, H (x, 0) j.castSucc = 0) → H (x, 0) (Fin.last _) ≠ -1) →
    ∀ z, H (z, 0) = 0 → ∃ y, OpenPath H y ∧ Tendsto y (𝓝[>] 0) (𝓝 z)
  /-- it is the straight-line homotopy, on the patch, between homogeneous polynomials of the degrees of the
  user's functions, those at time 0 being the user's functions homogenized -/
  form : ∃ F G c, (∀ j, (F j).IsHomogeneous ((degsOf w i g).getD j 0)) ∧
    (∀ j, (G j).IsHomogeneous ((degsOf w i g).getD j 0)) ∧ H = line F G (fun j => r.coef 0 j) c ∧
    ComputesFun simp w i g.length (affine F)
  /-- there are as many degrees as variables, and they are positive -/
  degrees : (degsOf w i g).length = g.length ∧ ∀ e ∈ degsOf w i g, 0 < e

/-- In that case every path ends at a zero. -/
theorem RegularSolve.converges {simp : Node → Node} {w w' : World} {i k h : ℕ} {g : List Var} {r : Choices}
    {H : (Fin (g.length + 1) → ℂ) × ℂ → Fin (g.length + 1) → ℂ} (hreg : RegularSolve simp w w' i k h g r H)
    (hinf : ∀ x, x ≠ 0 → (∀ j : Fin g.length, H (x, 0) j.castSucc = 0) → H (x, 0) (Fin.last _) ≠ -1)
    {y : ℝ → Fin (g.length + 1) → ℂ} (hy : OpenPath H y) : ∃ x, H (x, 0) = 0 ∧ Tendsto y (𝓝[>] 0) (𝓝 x) := by
  obtain ⟨ρ, hρ⟩ := hreg.near hinf
  exact hρ.limit hy

theorem segment_one_zero {s : ℂ} (h : s ∈ segment ℝ (1 : ℂ) 0) : s.re ∈ Icc (0 : ℝ) 1 ∧ s = (s.re : ℂ) := by
  obtain ⟨a, b, ha, hb, hab, rfl⟩ := h
  have : a • (1 : ℂ) + b • (0 : ℂ) = (a : ℂ) := by simp
  rw [this]
  refine ⟨?_, by simp⟩
  simp only [Complex.ofReal_re]
  exact ⟨ha, by linarith⟩

theorem mem_segment_one_zero {s : ℝ} (h : s ∈ Icc (0 : ℝ) 1) : (s : ℂ) ∈ segment ℝ (1 : ℂ) 0 :=
  ⟨s, 1 - s, h.1, by linarith [h.2], by ring, by simp⟩

/-- Paths over the real interval, as paths over the segment. -/
theorem nonsingularPath_of {V : Type} [NormedAddCommGroup V] [NormedSpace ℂ V] {H : V × ℂ → V} {y : ℝ → V}
    (hy : ZeroPath H 0 1 y) (ha : ∀ q, AnalyticAt ℂ H q)
    (hn : ∀ s ∈ Icc (0 : ℝ) 1, IsUnit (jacV H (y s, (s : ℂ)))) : NonsingularPath H 1 0 fun s => y s.re where
  cont := hy.cont.comp Complex.continuous_re.continuousOn fun s hs => (segment_one_zero hs).1
  analytic := fun s _ => ha _
  solution := fun s hs => by
    obtain ⟨h1, h2⟩ := segment_one_zero hs
    have := hy.zero s.re h1
    rwa [← h2] at this
  nonsingular := fun s hs => by
    obtain ⟨h1, h2⟩ := segment_one_zero hs
    have := hn s.re h1
    rwa [← h2] at this

theorem zeroPath_of {V : Type} [NormedAddCommGroup V] [NormedSpace ℂ V] {H : V × ℂ → V} {Y : ℂ → V}
    (hY : NonsingularPath H 1 0 Y) : ZeroPath H 0 1 fun s : ℝ => Y s where
  cont := hY.cont.comp Complex.continuous_ofReal.continuousOn fun s hs => mem_segment_one_zero hs
  zero := fun s hs => hY.solution _ (mem_segment_one_zero hs)

theorem rawPoint_ofFn (n : ℕ) (s degs : List ℕ) (rand : ℕ → ℚ × ℚ) : rawPoint n s degs rand =
    List.ofFn fun j : Fin n => tdCoord (s.getD j 0) (degs.getD j 0) (rand j) := by
  unfold rawPoint
  apply List.ext_getElem
  · simp
  · intro j h1 h2
    simp

theorem dot_cons_ofFn {n : ℕ} (ζ : Fin n → ℂ) (cf : ℕ → ℂ) :
    Patch.dot (1 :: List.ofFn ζ) ((List.range (n + 1)).map cf) =
      (fun j : Fin (n + 1) => cf j) ⬝ᵥ (Fin.cons 1 ζ : Fin (n + 1) → ℂ) := by
  rw [← dot_ofFn, List.ofFn_succ]
  simp

/-- A point on the patch proportional to `(1, ζ)` is the rescaled `(1, ζ)`. -/
theorem rescale_iff {n : ℕ} {ζ : Fin n → ℂ} {cf : ℕ → ℂ} {x : Fin (n + 1) → ℂ} :
    Patch.rescale [(List.range (n + 1)).map cf] (1 :: List.ofFn ζ) = some (List.ofFn x) ↔
      (fun j : Fin (n + 1) => cf j) ⬝ᵥ x = 1 ∧ x 0 ≠ 0 ∧ ∀ j : Fin n, x j.succ / x 0 = ζ j := by
  constructor
  · intro h
    obtain ⟨-, h2, h3⟩ := rescale_one _ _ _ h
    set lam := Patch.dot (1 :: List.ofFn ζ) ((List.range (n + 1)).map cf) with hlam
    rw [List.ofFn_succ, List.map_cons, List.map_ofFn, List.cons.injEq] at h3
    obtain ⟨e1, e2⟩ := h3
    have e2 := List.ofFn_injective e2
    have h0 : x 0 ≠ 0 := by rw [e1]; exact one_div_ne_zero h2
    have hq : ∀ j : Fin n, x j.succ / x 0 = ζ j := fun j => by
      have := congrFun e2 j
      simp only [Function.comp] at this
      rw [this, e1]
      field_simp
    refine ⟨?_, h0, hq⟩
    rw [dot_cons_div h0]
    have : (fun j : Fin n => x j.succ / x 0) = ζ := funext hq
    rw [this, ← dot_cons_ofFn, e1]
    exact one_div_mul_cancel h2
  · rintro ⟨h1, h0, hq⟩
    have hd : x 0 * Patch.dot (1 :: List.ofFn ζ) ((List.range (n + 1)).map cf) = 1 := by
      rw [dot_cons_div h0] at h1
      rw [dot_cons_ofFn]
      have : (fun j : Fin n => x j.succ / x 0) = ζ := funext hq
      rwa [this] at h1
    have hne : Patch.dot (1 :: List.ofFn ζ) ((List.range (n + 1)).map cf) ≠ 0 := by
      intro hc
      rw [hc, mul_zero] at hd
      exact zero_ne_one hd
    rw [rescale_one_total _ _ (by simp) hne]
    set lam := Patch.dot (1 :: List.ofFn ζ) ((List.range (n + 1)).map cf) with hlam
    have hx0 : x 0 = 1 / lam := by rw [eq_div_iff hne]; exact hd
    congr 1
    rw [List.ofFn_succ (f := x), List.map_cons, hx0, List.map_ofFn]
    congr 2
    funext j
    simp only [Function.comp]
    rw [← hq j, hx0]
    field_simp

/-- **C147.** For a square system of polynomials in one variable group, made by any history of
evaluation-safe operations, and any random choices (other than `γ`) that are generic: there are finitely
many rays from the origin such that for every `γ` on none of them the setup succeeds, evaluating the
homotopy is a function `H` of point and time, and `H` has everything wanted of `RegularSolve`. -/
theorem C147 (simp : Node → Node) (ops : List SysOp) (w : World)
    (hsafe : SafeRun simp ops World.init) (hrun : run simp ops World.init = some w)
    (r : Choices) (t : Var) (i k a b c h : ℕ) (hist : List (Op Var)) (g : List Var)
    (hd : [i, k, a, b, c, h].Nodup) (ht : t ∉ r.fresh 0 :: g)
    (hs : SquareTarget w i hist r.fresh g) (hgen : Generic w i g r) :
    ∃ B : Finset ℂ, (∀ β ∈ B, β ≠ 0) ∧ ∀ γ : ℚ × ℚ, gammaVal γ ≠ 0 →
      (∀ β ∈ B, ∀ ρ : ℝ, 0 < ρ → gammaVal γ ≠ ρ * β) →
      ∃ w' H, systemSetup simp { r with γ := γ } t i k a b c h w = some w' ∧
        Computes simp w' h (g.length + 1) H ∧ RegularSolve simp w w' i k h g r H := by
  obtain ⟨F, hF, hfun, hall⟩ := bridge simp ops w hsafe hrun r t i k a b c h hist g hd ht hs hgen.degrees
  set d : Fin g.length → ℕ := fun j => (degsOf w i g).getD j 0 with hdd
  set rr : Fin g.length → ℂ := fun j => ratValue (r.rand j) with hrr
  set v : Fin (g.length + 1) → ℂ := fun j => r.coef 0 j with hv
  have hlen : (degsOf w i g).length = g.length := by simp [degsOf, World.roots, hs.square]
  have hmem : ∀ j : Fin g.length, ∃ n ∈ w.roots (w.objs i), d j = (degG w.vals g n).toNat := by
    intro j
    have hj : j.1 < (degsOf w i g).length := by rw [hlen]; exact j.2
    have h1 : d j ∈ degsOf w i g := by
      simp only [hdd, List.getD, List.getElem?_eq_getElem hj, Option.getD_some]
      exact List.getElem_mem _
    obtain ⟨n, h2, h3⟩ := List.mem_map.1 h1
    exact ⟨n, h2, h3.symm⟩
  have hdpos : ∀ j, 0 < d j := by
    intro j
    obtain ⟨n, h1, h2⟩ := hmem j
    have := hgen.degrees n h1
    omega
  have hrne : ∀ j, rr j ≠ 0 := fun j => hgen.constants j j.2
  have hdims : degsOf w i g ≠ [] := by
    intro hc
    rw [hc] at hlen
    exact hgen.nonempty (List.length_eq_zero_iff.1 hlen.symm)
  have hvz : ∀ ζ : Fin g.length → ℂ, (∀ j, ζ j ^ d j = rr j) → v ⬝ᵥ (Fin.cons 1 ζ) ≠ 0 := by
    intro ζ hζ
    have := hgen.patch ζ hζ
    rwa [dot_cons_ofFn] at this
  have hG := startP_homogeneous d rr
  obtain ⟨B, hB, hgood⟩ := good_of_rays hF hG (startP_nonsingular F hdpos hrne hvz)
  refine ⟨B, hB, fun γ hγ hray => ?_⟩
  have good := hgood _ hγ hray
  obtain ⟨w', hw', hcomp, hdeh, hsp⟩ := hall γ
  set H := line F (startP d rr) v (gammaVal γ) with hH
  have hreg : ∀ ε : ℝ, 0 < ε → Regular H ε 1 := fun ε hε => good.regular hF hG hε
  have hstart : ∀ x, H (x, 1) = 0 ↔ ∃ index < (degsOf w i g).prod, IsStart w w' i k g r index x := by
    intro x
    rw [hH, line_zero]
    simp only [sub_self, zero_mul, zero_add, mul_one, mul_eq_zero, hγ, false_or]
    constructor
    · rintro ⟨h1, h2⟩
      have hx : x ≠ 0 := by rintro rfl; simp at h2
      obtain ⟨h3, h4⟩ := startP_zero hdpos hx h1
      have hch : ∀ j : Fin g.length, ∃ s < d j, x j.succ / x 0 = tdCoord s (d j) (r.rand j) := fun j =>
        exists_tdCoord (hdpos j) (hrne j) (h4 j)
      choose s hs1 hs2 using hch
      have hbox : InBox (List.ofFn s) (degsOf w i g) := by
        unfold InBox
        rw [List.forall₂_iff_get]
        refine ⟨by simp [hlen], fun j e1 e2 => ?_⟩
        simp only [List.length_ofFn] at e1
        have := hs1 ⟨j, e1⟩
        simpa [hdd, List.getD, List.getElem?_eq_getElem e2] using this
      obtain ⟨q1, q2⟩ := (C31_bijection _ hdims).2.1 _ hbox
      refine ⟨_, q1, ?_⟩
      unfold IsStart
      rw [hsp, q2, Option.bind_some, rawPoint_ofFn, rescale_iff]
      refine ⟨h2, h3, fun j => ?_⟩
      rw [hs2 j]
      simp [hdd, List.getD]
    · rintro ⟨index, hi, h1⟩
      unfold IsStart at h1
      rw [hsp, Option.bind_eq_some_iff] at h1
      obtain ⟨s, hs1, h1⟩ := h1
      rw [rawPoint_ofFn, rescale_iff] at h1
      obtain ⟨h2, h3, h4⟩ := h1
      refine ⟨fun j => ?_, h2⟩
      have := root_pow (s.getD j 0) (d j) (r.rand j) (hdpos j).ne'
      rw [← h4 j, div_pow, div_eq_iff (pow_ne_zero _ h3)] at this
      rw [eval_startP, this, sub_self]
  have hat : ∀ x, (∀ j, MvPolynomial.eval x (F j) = 0) → ∀ j : Fin g.length, H (x, 0) j.castSucc = 0 := by
    intro x hz j
    simp [hH, line, hz j]
  have hnear : (∀ x, x ≠ 0 → (∀ j : Fin g.length, H (x, 0) j.castSucc = 0) → H (x, 0) (Fin.last _) ≠ -1) →
      ∃ ρ, Punctured H ρ := by
    intro hinf
    refine line_punctured hF hG (startP_nonsingular F hdpos hrne hvz) hγ fun x hx hz hvx => ?_
    refine hinf x hx (hat x hz) ?_
    simp [hH, line, hvx]
  refine ⟨w', H, hw', fun x s junk hj => hcomp x s junk hj, ?_⟩
  refine ⟨line_analytic, fun s hs x hx => good.nonsingular hs.1 hs.2 hx, hstart, ?_, ?_, hdeh,
    fun s hs x hx => open_exists hreg hs hx, fun y₁ y₂ h1 h2 s hs he s' hs' =>
      open_unique hreg h1 h2 hs he s' hs', ?_, ?_, ?_, hnear, ?_, ?_, ?_, ⟨F, startP d rr, gammaVal γ, hF, hG, hH, hfun⟩, hlen, fun e he => by
      obtain ⟨n, h1, rfl⟩ := List.mem_map.1 he
      have := hgen.degrees n h1
      omega⟩
  · intro index hi
    obtain ⟨s, hs1, hbox, -⟩ := (C31_bijection _ hdims).1 index hi
    set ζ : Fin g.length → ℂ := fun j => tdCoord (s.getD j 0) ((degsOf w i g).getD j 0) (r.rand j) with hζ
    have hpow : ∀ j, ζ j ^ d j = rr j := fun j => root_pow _ _ _ (hdpos j).ne'
    have hne := hgen.patch ζ hpow
    set lam := Patch.dot (1 :: List.ofFn ζ) ((List.range (g.length + 1)).map (r.coef 0)) with hlam
    refine ⟨lam⁻¹ • (Fin.cons 1 ζ : Fin (g.length + 1) → ℂ), ?_⟩
    unfold IsStart
    rw [hsp, hs1, Option.bind_some, rawPoint_ofFn, rescale_iff]
    refine ⟨?_, by simpa using hne, fun j => ?_⟩
    · rw [dotProduct_smul, ← dot_cons_ofFn, ← hlam, smul_eq_mul, inv_mul_cancel₀ hne]
    · simp only [Pi.smul_apply, Fin.cons_succ, Fin.cons_zero, smul_eq_mul, mul_one]
      rw [mul_comm, mul_div_assoc, div_self (inv_ne_zero hne), mul_one]
  · intro a' b' x h1 h2
    unfold IsStart at h1 h2
    rw [hsp, Option.bind_eq_some_iff] at h1 h2
    obtain ⟨s1, e1, h1⟩ := h1
    obtain ⟨s2, e2, h2⟩ := h2
    rw [rawPoint_ofFn, rescale_iff] at h1 h2
    have hraw : rawPoint (degsOf w i g).length s1 (degsOf w i g) r.rand =
        rawPoint (degsOf w i g).length s2 (degsOf w i g) r.rand := by
      rw [hlen, rawPoint_ofFn, rawPoint_ofFn]
      congr 1
      funext j
      rw [← h1.2.2 j, ← h2.2.2 j]
    obtain rfl := rawPoint_inj (fun j hj => hgen.constants j (by rw [← hlen]; exact hj)) (inBox_of e1)
      (inBox_of e2) hraw
    exact C31_injective _ _ _ _ e1 e2
  · intro f hf y hy hu hne
    obtain rfl : f = affine F := hf.unique hfun
    rw [dot_cons_ofFn] at hne
    obtain ⟨z1, z2⟩ := affine_nonsingular (G := startP d rr) (γ := gammaVal γ) hF hy hu rfl hne
    obtain ⟨Y, hY, hY0⟩ := reaches hreg z1 z2
    have hY1 : H (Y 1, ((1 : ℝ) : ℂ)) = 0 := hY.zero 1 ⟨zero_le_one, le_rfl⟩
    rw [Complex.ofReal_one] at hY1
    obtain ⟨index, hi, hst⟩ := (hstart (Y 1)).1 hY1
    refine ⟨fun s => Y s.re, index, nonsingularPath_of hY line_analytic ?_, hi, by simpa using hst,
      by simpa [hY0] using hne, ?_⟩
    · intro s hs
      rcases eq_or_lt_of_le hs.1 with h0 | h0
      · rw [← h0, hY0, Complex.ofReal_zero]
        exact z2
      · exact good.nonsingular h0 hs.2 (hY.zero s hs)
    · rw [hdeh]
      simp only [Complex.zero_re, hY0, Pi.smul_apply, Fin.cons_succ, Fin.cons_zero, smul_eq_mul, mul_one]
      congr 2
      funext j
      rw [mul_comm, mul_div_assoc, div_self (inv_ne_zero hne), mul_one]
  · intro Y Y' h1 h2 he
    have := end_unique hreg (zeroPath_of h1) (zeroPath_of h2) (by simpa using he)
    simpa using this
  · intro Y Y' h1 h2 he
    have := start_unique hreg (zeroPath_of h1) (zeroPath_of h2)
      (by have := h1.nonsingular 0 (right_mem_segment ℝ _ _); simpa using this) (by simpa using he)
    simpa using this
  · intro f hf x hx h0
    obtain rfl : f = affine F := hf.unique hfun
    rw [hH, line_zero] at hx
    funext j
    have h1 := hx.1 j
    simp only [sub_zero, one_mul, mul_zero, zero_mul, add_zero] at h1
    have h2 : (Fin.cons 1 fun j : Fin g.length => x j.succ / x 0 : Fin (g.length + 1) → ℂ) = (x 0)⁻¹ • x := by
      funext q
      refine Fin.cases ?_ (fun q => ?_) q
      · simp [h0]
      · simp [div_eq_inv_mul]
    simp only [affine, Pi.zero_apply]
    rw [h2, eval_smul_homogeneous (hF j), h1, mul_zero]
  · intro hinf f hf y hy
    obtain rfl : f = affine F := hf.unique hfun
    have hz : ∀ j, MvPolynomial.eval (Fin.cons 1 y : Fin (g.length + 1) → ℂ) (F j) = 0 := fun j => congrFun hy j
    have hne : v ⬝ᵥ (Fin.cons 1 y : Fin (g.length + 1) → ℂ) ≠ 0 := by
      intro hc
      refine hinf (Fin.cons 1 y) (fun h => ?_) (hat _ hz) ?_
      · have := congrFun h 0
        simp at this
      · simp [hH, line, hc]
    set lam := v ⬝ᵥ (Fin.cons 1 y : Fin (g.length + 1) → ℂ) with hlam
    refine ⟨lam⁻¹ • (Fin.cons 1 y : Fin (g.length + 1) → ℂ), ?_, by simpa using hne, fun j => ?_⟩
    · rw [hH, line_zero]
      refine ⟨fun j => ?_, by rw [dotProduct_smul, ← hlam, smul_eq_mul, inv_mul_cancel₀ hne]⟩
      rw [eval_smul_homogeneous (hF j), hz j]
      simp
    · simp only [Pi.smul_apply, Fin.cons_succ, Fin.cons_zero, smul_eq_mul, mul_one]
      rw [mul_comm, mul_div_assoc, div_self (inv_ne_zero hne), mul_one]
  · intro hinf z hz
    obtain ⟨ρ, hρ⟩ := hnear hinf
    have hone : (1 : ℝ) ∈ Ioc (0 : ℝ) 1 := ⟨one_pos, le_rfl⟩
    have hex : ∀ x : {x // H (x, 1) = 0}, ∃ y l, OpenPath H y ∧ y 1 = x.1 ∧ Tendsto y (𝓝[>] 0) (𝓝 l) := by
      intro x
      obtain ⟨y, hy, hyx⟩ := open_exists hreg hone (x := x.1) (by simpa using x.2)
      obtain ⟨l, -, hl⟩ := hρ.limit hy
      exact ⟨y, l, hy, hyx, hl⟩
    choose y l hy hy1 hl using hex
    have hfin : Finite {x // H (x, 1) = 0} := by
      classical
      have hsub : {x | H (x, 1) = 0} ⊆ (fun idx : ℕ => if h : ∃ x, IsStart w w' i k g r idx x then h.choose else 0) ''
          ((Finset.range (degsOf w i g).prod : Finset ℕ) : Set ℕ) := by
        intro x hx
        obtain ⟨idx, h1, h2⟩ := (hstart x).1 hx
        refine ⟨idx, by simpa using h1, ?_⟩
        have hxx : ∃ x, IsStart w w' i k g r idx x := ⟨x, h2⟩
        dsimp only
        rw [dif_pos hxx]
        exact (List.ofFn_injective (Option.some.inj (h2.symm.trans hxx.choose_spec))).symm
      exact Set.Finite.subset (Set.Finite.image _ (Finset.finite_toSet _)) hsub
    obtain ⟨q, hq⟩ := limit_of_paths (y := y) (l := l) hF hG (fun x h1 h2 => by
      by_contra hx
      refine hinf x hx (hat x h1) ?_
      simp [hH, line, h2]) (fun s hs x hx => by
      obtain ⟨Y, hY, hYx⟩ := open_exists hreg hs hx
      have h1 : H (Y 1, 1) = 0 := by simpa using hY.zero 1 hone
      exact ⟨⟨Y 1, h1⟩, by rw [← hYx]; exact open_unique hreg (hy _) hY hone (hy1 _) s hs⟩) hl hz
    exact ⟨y q, hy q, hq ▸ hl q⟩

/-- **C147 (count).** The user's system has at most as many nonsingular solutions (not at infinity for the
patch) as there are start points. -/
theorem C147_count {simp : Node → Node} {w w' : World} {i k h : ℕ} {g : List Var} {r : Choices}
    {H : (Fin (g.length + 1) → ℂ) × ℂ → Fin (g.length + 1) → ℂ}
    (hreg : RegularSolve simp w w' i k h g r H) (f : (Fin g.length → ℂ) → Fin g.length → ℂ)
    (hf : ComputesFun simp w i g.length f) :
    {y | f y = 0 ∧ IsUnit (fderiv ℂ f y) ∧
      Patch.dot (1 :: List.ofFn y) ((List.range (g.length + 1)).map (r.coef 0)) ≠ 0}.encard ≤
      (degsOf w i g).prod := by
  have hex : ∀ y : {y | f y = 0 ∧ IsUnit (fderiv ℂ f y) ∧
      Patch.dot (1 :: List.ofFn y) ((List.range (g.length + 1)).map (r.coef 0)) ≠ 0}, ∃ Y index,
      NonsingularPath H 1 0 Y ∧ index < (degsOf w i g).prod ∧ IsStart w w' i k g r index (Y 1) ∧ Y 0 0 ≠ 0 ∧
      (w'.objs h).vs.dehomogenize (List.ofFn (Y 0)) = some (List.ofFn y.1) := fun y =>
    hreg.reached f hf y.1 y.2.1 y.2.2.1 y.2.2.2
  choose Y index h1 h2 h3 h4 h5 using hex
  let φ : {y | f y = 0 ∧ IsUnit (fderiv ℂ f y) ∧
      Patch.dot (1 :: List.ofFn y) ((List.range (g.length + 1)).map (r.coef 0)) ≠ 0} →
      Fin (degsOf w i g).prod := fun y => ⟨index y, h2 y⟩
  have hφ : Function.Injective φ := by
    intro y y' he
    have he : index y = index y' := congrArg Fin.val he
    have e1 := h3 y
    have e2 := h3 y'
    rw [he] at e1
    unfold IsStart at e1 e2
    rw [e1, Option.some.injEq] at e2
    have e3 := hreg.oneEnd _ _ (h1 y) (h1 y') (List.ofFn_injective e2)
    have e4 := h5 y
    rw [e3, h5 y', Option.some.injEq] at e4
    exact Subtype.ext (List.ofFn_injective e4.symm)
  have hle := ENat.card_le_card_of_injective hφ
  rw [ENat.card_eq_coe_fintype_card (α := Fin _), Fintype.card_fin] at hle
  exact hle

/-! ### C148 -/

/-- Where a linear solve with the Jacobian of the homotopy can be exact. -/
def Solvable {V : Type} [NormedAddCommGroup V] [NormedSpace ℂ V] (H : V × ℂ → V) : Set (V × ℂ) :=
  {q | IsUnit (jacV H q)}

theorem solvable_open {V : Type} [NormedAddCommGroup V] [NormedSpace ℂ V] [CompleteSpace V]
    {H : V × ℂ → V} (ha : ∀ q, AnalyticAt ℂ H q) : IsOpen (Solvable H) := by
  have hc : Continuous (jacV H) := by
    have h1 : Continuous (fderiv ℂ H) :=
      continuous_iff_continuousAt.2 fun q => (ha q).fderiv.continuousAt
    exact h1.clm_comp continuous_const
  exact Units.isOpen.preimage hc

/-- Settings and initial state of a fixed-precision track from time 1 to the time `te` with step size at
most `h0`: at least one Newton iteration per step, no truncation of long paths, a step size not below the
minimum, enough steps allowed, a tolerance on times below 1. -/
structure FineTrack {X : Type} (cfg : Cfg) (s0 : St X) (tol h0 : ℝ) (te : ℂ) : Prop where
  tol : cfg.tol = tol
  newton : 1 ≤ cfg.minNewton ∧ cfg.minNewton ≤ cfg.maxNewton ∧ cfg.maxNewton < 2 ^ 32
  noTruncation : cfg.truncate = false
  eps : cfg.eps < 1
  stepPos : 0 < s0.step
  stepMin : cfg.minStep ≤ s0.step
  stepMax : s0.step ≤ h0
  time : s0.time = 1
  endtime : s0.endtime = te
  counters : s0.nSucc = 0 ∧ s0.nFail = 0
  steps : ‖te - 1‖ ≤ cfg.maxNumSteps * s0.step

theorem close_zero {a : ℂ} {e : ℝ} (he : e < 1) (h : Close a 0 e) : a = 0 := by
  rcases h with h | h | h
  · exact h
  · rw [sub_zero] at h
    have : ‖a‖ = 0 := by nlinarith [norm_nonneg a]
    exact norm_eq_zero.1 this
  · rw [sub_zero, norm_zero, mul_zero] at h
    exact norm_eq_zero.1 (le_antisymm h (norm_nonneg _))

/-- **C148 (solutions).** Every nonsingular solution is found: for each there is a start point, and
for any tracking tolerance, any predictor and any `ε` a step size `h0`, such that every fixed-precision
track from that start point to time 0 with steps at most `h0`, whose linear solves are exact where the
Jacobian is invertible, succeeds without a failed step and, dehomogenized, its result is within `ε` of the
solution. -/
theorem C148 {simp : Node → Node} {w w' : World} {i k h : ℕ} {g : List Var} {r : Choices}
    {H : (Fin (g.length + 1) → ℂ) × ℂ → Fin (g.length + 1) → ℂ}
    (hreg : RegularSolve simp w w' i k h g r H) (f : (Fin g.length → ℂ) → Fin g.length → ℂ)
    (hf : ComputesFun simp w i g.length f) (y : Fin g.length → ℂ) (hy : f y = 0)
    (hu : IsUnit (fderiv ℂ f y))
    (hp : Patch.dot (1 :: List.ofFn y) ((List.range (g.length + 1)).map (r.coef 0)) ≠ 0) :
    ∃ index < (degsOf w i g).prod, ∀ (T : Table) (tol ε : ℝ), 0 < tol → 0 < ε →
      ∃ h0 > 0, ∀ (cfg : Cfg) (env : Track.Env (Fin (g.length + 1) → ℂ)) (s0 : St (Fin (g.length + 1) → ℂ)),
        ExactOn H T (Solvable H) env → FineTrack cfg s0 tol h0 0 → IsStart w w' i k g r index s0.space →
        ∃ n s y', fixedRun cfg env s0 n = .done .success s (some s.space) ∧ s.nFail = 0 ∧
          (w'.objs h).vs.dehomogenize (List.ofFn s.space) = some (List.ofFn y') ∧ ‖y' - y‖ ≤ ε := by
  obtain ⟨Y, index, hY, hi, hst, hY0, hdeh⟩ := hreg.reached f hf y hy hu hp
  refine ⟨index, hi, fun T tol ε htol hε => ?_⟩
  rw [hreg.dehomogenizes, Option.some.injEq] at hdeh
  have hyeq : y = fun j : Fin g.length => Y 0 j.succ / Y 0 0 := (List.ofFn_injective hdeh).symm
  have hcont : ContinuousAt (fun x : Fin (g.length + 1) → ℂ => fun j : Fin g.length => x j.succ / x 0) (Y 0) := by
    rw [continuousAt_pi]
    intro j
    exact (continuous_apply _).continuousAt.div (continuous_apply _).continuousAt hY0
  obtain ⟨δ, hδ, hclose⟩ := Metric.continuousAt_iff.1 hcont ε hε
  obtain ⟨h0, hh0, ρ, hρ, -, hmain⟩ := C85_follows hY T (solvable_open hreg.analytic)
    (fun s hs => hY.nonsingular s hs) tol (δ / 2) htol (half_pos hδ)
  refine ⟨h0, hh0, fun cfg env s0 hE hc hs => ?_⟩
  have hsp : s0.space = Y 1 := by
    unfold IsStart at hs hst
    rw [hst, Option.some.injEq] at hs
    exact (List.ofFn_injective hs).symm
  obtain ⟨-, n, s, e1, e2, e3, e4⟩ := hmain cfg env s0 hE hc.tol hc.newton.1 hc.newton.2.1 hc.newton.2.2
    hc.noTruncation hc.stepPos hc.stepMin hc.stepMax hc.time hc.endtime hc.counters.1 hc.counters.2 hc.steps
    (by rw [hsp, sub_self, norm_zero]; exact hρ.le)
  have ht := close_zero hc.eps e2
  rw [ht] at e3
  refine ⟨n, s, _, e1, e4, hreg.dehomogenizes _, ?_⟩
  have := hclose (x := s.space) (by rw [dist_eq_norm]; linarith)
  rw [dist_eq_norm, ← hyeq] at this
  exact this.le

/-- The points of a path over `[te, 1]`. -/
theorem nonsingularPath_open {simp : Node → Node} {w w' : World} {i k h : ℕ} {g : List Var} {r : Choices}
    {H : (Fin (g.length + 1) → ℂ) × ℂ → Fin (g.length + 1) → ℂ}
    (hreg : RegularSolve simp w w' i k h g r H) {y : ℝ → Fin (g.length + 1) → ℂ} (hy : OpenPath H y)
    {te : ℝ} (h0 : 0 < te) (h1 : te ≤ 1) : NonsingularPath H 1 te fun s => y s.re := by
  have hseg : ∀ s ∈ segment ℝ (1 : ℂ) te, s.re ∈ Ioc (0 : ℝ) 1 ∧ s = (s.re : ℂ) := by
    rintro s ⟨a, b, ha, hb, hab, rfl⟩
    have : a • (1 : ℂ) + b • (te : ℂ) = ((a + b * te : ℝ) : ℂ) := by push_cast; simp
    rw [this]
    refine ⟨?_, by simp⟩
    simp only [Complex.ofReal_re]
    constructor
    · rcases eq_or_lt_of_le ha with e | e
      · subst e
        have : b = 1 := by linarith
        subst this
        linarith
      · nlinarith
    · nlinarith
  refine ⟨hy.cont.comp Complex.continuous_re.continuousOn fun s hs => (hseg s hs).1, fun _ _ => hreg.analytic _,
    fun s hs => ?_, fun s hs => ?_⟩
  · obtain ⟨e1, e2⟩ := hseg s hs
    have := hy.zero s.re e1
    rwa [← e2] at this
  · obtain ⟨e1, e2⟩ := hseg s hs
    have := hreg.nonsingular s.re e1 _ (hy.zero s.re e1)
    rwa [← e2] at this

/-- **C148 (all paths).** All paths can be tracked to any positive time, such as the endgame boundary: for
any tracking tolerance, predictor and `ε` there is one step size such that from every start point every
fixed-precision track with steps at most that, with exact linear solves, succeeds without a failed step,
its result being within `ε` of the path through that start point. -/
theorem C148_all {simp : Node → Node} {w w' : World} {i k h : ℕ} {g : List Var} {r : Choices}
    {H : (Fin (g.length + 1) → ℂ) × ℂ → Fin (g.length + 1) → ℂ}
    (hreg : RegularSolve simp w w' i k h g r H) (T : Table) (te tol ε : ℝ) (h0 : 0 < te) (h1 : te ≤ 1)
    (htol : 0 < tol) (hε : 0 < ε) :
    ∃ hm > 0, ∀ (cfg : Cfg) (env : Track.Env (Fin (g.length + 1) → ℂ)) (s0 : St (Fin (g.length + 1) → ℂ))
      (index : ℕ), index < (degsOf w i g).prod → ExactOn H T (Solvable H) env → FineTrack cfg s0 tol hm te →
      IsStart w w' i k g r index s0.space →
      ∃ y n s, OpenPath H y ∧ y 1 = s0.space ∧ fixedRun cfg env s0 n = .done .success s (some s.space) ∧
        s.nFail = 0 ∧ Close s.time te cfg.eps ∧ ‖s.space - y s.time.re‖ ≤ ε := by
  have hex : ∀ index, ∃ hm > 0, ∀ (cfg : Cfg) (env : Track.Env (Fin (g.length + 1) → ℂ))
      (s0 : St (Fin (g.length + 1) → ℂ)), index < (degsOf w i g).prod → ExactOn H T (Solvable H) env →
      FineTrack cfg s0 tol hm te → IsStart w w' i k g r index s0.space →
      ∃ y n s, OpenPath H y ∧ y 1 = s0.space ∧ fixedRun cfg env s0 n = .done .success s (some s.space) ∧
        s.nFail = 0 ∧ Close s.time te cfg.eps ∧ ‖s.space - y s.time.re‖ ≤ ε := by
    intro index
    by_cases hi : index < (degsOf w i g).prod
    swap
    · exact ⟨1, one_pos, fun _ _ _ h => (hi h).elim⟩
    obtain ⟨x, hx⟩ := hreg.numbered index hi
    obtain ⟨y, hy, hy1⟩ := hreg.through 1 ⟨one_pos, le_rfl⟩ x
      (by rw [Complex.ofReal_one]; exact (hreg.starts x).2 ⟨index, hi, hx⟩)
    have P := nonsingularPath_open hreg hy h0 h1
    obtain ⟨hm, hhm, ρ, hρ, -, hmain⟩ := C85_follows P T (solvable_open hreg.analytic)
      (fun s hs => P.nonsingular s hs) tol ε htol hε
    refine ⟨hm, hhm, fun cfg env s0 _ hE hc hs => ?_⟩
    have hsp : s0.space = x := by
      unfold IsStart at hs hx
      rw [hx, Option.some.injEq] at hs
      exact (List.ofFn_injective hs).symm
    obtain ⟨-, n, s, e1, e2, e3, e4⟩ := hmain cfg env s0 hE hc.tol hc.newton.1 hc.newton.2.1 hc.newton.2.2
      hc.noTruncation hc.stepPos hc.stepMin hc.stepMax hc.time hc.endtime hc.counters.1 hc.counters.2 hc.steps
      (by simp only [Complex.one_re]; rw [hsp, hy1, sub_self, norm_zero]; exact hρ.le)
    exact ⟨y, n, s, hy, by rw [hy1, hsp], e1, e4, e2, e3⟩
  choose hm hpos hmain using hex
  have hmin : ∀ N : ℕ, ∃ m > 0, ∀ index < N, m ≤ hm index := by
    intro N
    induction N with
    | zero => exact ⟨1, one_pos, fun _ h => (Nat.not_lt_zero _ h).elim⟩
    | succ N ih =>
      obtain ⟨m, hm0, hmm⟩ := ih
      refine ⟨min m (hm N), lt_min hm0 (hpos N), fun index hi => ?_⟩
      rcases Nat.lt_succ_iff_lt_or_eq.1 hi with h | h
      · exact (min_le_left _ _).trans (hmm index h)
      · rw [h]; exact min_le_right _ _
  obtain ⟨m, hm0, hmm⟩ := hmin (degsOf w i g).prod
  refine ⟨m, hm0, fun cfg env s0 index hi hE hc hs => ?_⟩
  exact hmain index cfg env s0 hi hE { hc with stepMax := hc.stepMax.trans (hmm index hi) } hs

/-! ### A case: `x^2 - 1` -/

/-- `x^2 - 1` -/
def sqm : Node := .sum (.cons true (.ipow (.var 0) 2) (.cons false (.int 1) .nil))

theorem roots_sqm : (ww sqm).roots ((ww sqm).objs 0) = [sqm] := by
  simp [World.roots, ww, World.set, ow]

theorem squareTarget_sqm : SquareTarget (ww sqm) 0 [.addGroup [0]] (· + 1) [0] := by
  have ho : (ww sqm).objs 0 = ow := by simp [ww, World.set]
  have hr := roots_sqm
  refine ⟨⟨by rw [ho]; rfl, by rw [ho]; rfl, by rw [ho]; rfl, by rw [ho]; simp [ow], ⟨fun a b => by simp,
    fun k => ⟨?_, ?_, ?_⟩⟩, ?_, ?_, ?_, ?_⟩, by rw [ho]; rfl, by rw [ho]; rfl, by rw [ho]; rfl, by rw [ho]; rfl,
    by rw [ho]; rfl, by rw [ho]; rfl, ?_, ?_⟩
  · rw [ho]; simp [ow, Vars.addGroup, Vars.empty]
  · rw [ho]; simp [ow, Vars.addGroup, Vars.empty]
  · rw [hr]; simp [sqm, Node.vars, Ops.vars]
  · rw [ho]; simp [ow, Vars.addGroup, Vars.empty]
  · rw [ho]; simp [ow, Vars.addGroup, Vars.empty]
  · rw [hr]; simp [sqm, PolyTree, PolySum, MonoTree]
  · rw [ho]; simp [ow, Vars.addGroup, Vars.empty]
  · rw [hr]; simp [sqm, Node.vars, Ops.vars]
  · rw [hr]; simp [sqm, degG, degGSum, degV, foldUnary]

theorem degG_sqm (cur : Env) : degG cur [0] sqm = 2 := by
  simp [sqm, degG, degGSum, degV, foldUnary]

/-- Random choices: start system `x^2 - (1+2i)`, patch `2 x_0 + x_1 = 1`. -/
noncomputable def choices (γ : ℚ × ℚ) : Choices :=
  ⟨(· + 1), fun _ j => if j = 0 then 2 else 1, fun _ => (1, 2), id, γ⟩

theorem degsOf_sqm : degsOf (ww sqm) 0 [0] = [2] := by
  simp [degsOf, roots_sqm, degG_sqm]

theorem generic_sqm (γ : ℚ × ℚ) : Generic (ww sqm) 0 [0] (choices γ) where
  nonempty := by simp
  degrees := by rw [roots_sqm]; simp [degG_sqm]
  constants := fun j _ => by
    intro h
    have := congrArg Complex.re h
    simp [choices, ratValue] at this
  patch := fun ζ hζ hc => by
    have h0 := hζ 0
    rw [degsOf_sqm] at h0
    have h1 : ζ 0 = -2 := by
      have h2 : (2 : ℂ) + ζ 0 = 0 := by simpa [Patch.dot, choices, List.range_succ, List.ofFn_succ] using hc
      exact (neg_eq_of_add_eq_zero_right h2).symm
    rw [h1] at h0
    have := congrArg Complex.im h0
    simp [choices, ratValue, pow_two] at this

theorem computes_sqm (simp : Node → Node) :
    ComputesFun simp (ww sqm) 0 1 fun y _ => y 0 ^ 2 - 1 := by
  intro y junk hj
  have ho : (ww sqm).objs 0 = ow := by simp [ww, World.set]
  have he : Evaluable (ww sqm) 0 [0] := by
    refine ⟨?_, ?_, ?_⟩
    · rw [ho]
      simp [Obj.vars, ow, Vars.ordering, Vars.addGroup, Vars.empty, Vars.numHomVars, Vars.numVariables,
        Vars.numNatural, Vars.orderingLoop]
    · rw [roots_sqm]
      intro n hn v hv
      simp only [List.mem_singleton] at hn
      subst hn
      simp [sqm, Node.vars, Ops.vars] at hv
      exact Or.inl (by simp [hv])
    · rw [ho]; simp [ow]
  obtain ⟨out, w', h1, pv, rfl, -, h3⟩ := (C20_partial simp _ (ww sqm) (by simp [SafeRun, Safe])
    (run_ww simp sqm) 0 [0] (List.ofFn y) (fun _ => y 0) junk he (by simp [Binds])
    (by unfold PatchFits; rw [ho]; simp [ow, Obj.new]) (by rw [ho]; simp [ow, Obj.new])
    (by rw [ho]; simp [Obj.total, ow, Obj.new, hj])).1 (by rw [ho]; rfl)
  rw [h3 (by rw [ho]; rfl), roots_sqm] at h1
  refine ⟨w', h1.trans ?_⟩
  simp [sqm, B2.eval, evalSum, sub_eq_add_neg]

theorem exists_gamma (B : Finset ℂ) :
    ∃ γ : ℚ × ℚ, gammaVal γ ≠ 0 ∧ ∀ β ∈ B, ∀ ρ : ℝ, 0 < ρ → gammaVal γ ≠ ρ * β := by
  have hinf : (Set.range ((↑) : ℚ → ℝ)).Infinite := Set.infinite_range_of_injective Rat.cast_injective
  obtain ⟨x, ⟨q, rfl⟩, hq⟩ := hinf.exists_notMem_finset (B.image fun β => β.im / β.re)
  refine ⟨(1, q), ?_, ?_⟩
  · intro hc
    have := congrArg Complex.re hc
    simp [gammaVal] at this
  · intro β hβ ρ hρ hc
    apply hq
    rw [Finset.mem_image]
    refine ⟨β, hβ, ?_⟩
    have h1 := congrArg Complex.re hc
    have h2 := congrArg Complex.im hc
    simp [gammaVal] at h1 h2
    have h3 : β.re ≠ 0 := by intro h; rw [h, mul_zero] at h1; exact one_ne_zero h1
    rw [div_eq_iff h3, h2]
    linear_combination β.im * h1

theorem fderiv_sqm (p : Fin 1 → ℂ) (hp : p 0 ≠ 0) :
    IsUnit (fderiv ℂ (fun (y : Fin 1 → ℂ) (_ : Fin 1) => y 0 ^ 2 - 1) p) := by
  have h1 : HasFDerivAt (fun (y : Fin 1 → ℂ) (_ : Fin 1) => y 0 ^ 2 - 1)
      (ContinuousLinearMap.pi fun _ : Fin 1 => (2 * p 0) • (ContinuousLinearMap.proj 0 : (Fin 1 → ℂ) →L[ℂ] ℂ)) p := by
    rw [hasFDerivAt_pi']
    intro i
    have h2 : HasFDerivAt (fun y : Fin 1 → ℂ => y 0) (ContinuousLinearMap.proj 0 : (Fin 1 → ℂ) →L[ℂ] ℂ) p :=
      hasFDerivAt_apply 0 _
    have h3 := (h2.pow 2).sub_const 1
    refine h3.congr_fderiv ?_
    ext w
    simp
  have h2 : 2 * p 0 ≠ 0 := mul_ne_zero two_ne_zero hp
  rw [h1.fderiv, ContinuousLinearMap.isUnit_iff_bijective]
  constructor
  · intro u v h
    have := congrFun h 0
    simp only [ContinuousLinearMap.coe_pi', ContinuousLinearMap.smul_apply, ContinuousLinearMap.proj_apply,
      smul_eq_mul] at this
    have h3 := mul_left_cancel₀ h2 this
    ext j
    rw [Subsingleton.elim j 0, h3]
  · intro v
    refine ⟨fun _ => v 0 / (2 * p 0), ?_⟩
    ext j
    rw [Subsingleton.elim j 0]
    simp only [ContinuousLinearMap.coe_pi', ContinuousLinearMap.smul_apply, ContinuousLinearMap.proj_apply,
      smul_eq_mul]
    exact mul_div_cancel₀ _ h2

/-- `C147` and `C148` for `x^2 - 1` and its solution 1: there is a `γ` for which the solve is regular, and
one of the two start points leads to 1. -/
example (simp : Node → Node) : ∃ γ w' H, systemSetup simp (choices γ) 9 0 1 2 3 4 5 (ww sqm) = some w' ∧
    Computes simp w' 5 2 H ∧ RegularSolve simp (ww sqm) w' 0 1 5 [0] (choices (0, 0)) H ∧
    ∃ index < 2, ∀ (T : Table) (tol ε : ℝ), 0 < tol → 0 < ε → ∃ h0 > 0,
      ∀ (cfg : Cfg) (env : Track.Env (Fin 2 → ℂ)) (s0 : St (Fin 2 → ℂ)),
        ExactOn H T (Solvable H) env → FineTrack cfg s0 tol h0 0 →
        IsStart (ww sqm) w' 0 1 [0] (choices (0, 0)) index s0.space →
        ∃ n s y', fixedRun cfg env s0 n = .done .success s (some s.space) ∧ s.nFail = 0 ∧
          (w'.objs 5).vs.dehomogenize (List.ofFn s.space) = some (List.ofFn y') ∧
          ‖y' - fun _ : Fin 1 => (1 : ℂ)‖ ≤ ε := by
  obtain ⟨B, -, hB⟩ := C147 simp _ (ww sqm) (by simp [SafeRun, Safe]) (run_ww simp sqm) (choices (0, 0)) 9
    0 1 2 3 4 5 _ [0] (by simp) (by simp [choices]) squareTarget_sqm (generic_sqm _)
  obtain ⟨γ, h1, h2⟩ := exists_gamma B
  obtain ⟨w', H, h3, h4, h5⟩ := hB γ h1 h2
  refine ⟨γ, w', H, h3, h4, h5, ?_⟩
  have := C148 h5 _ (computes_sqm simp) (fun _ => 1) (by funext j; simp) (fderiv_sqm _ one_ne_zero)
    (by simp [Patch.dot, choices, List.range_succ]; norm_num)
  rw [degsOf_sqm] at this
  simpa using this

/-- The polynomial of `x^2 - 1`, homogenized. -/
noncomputable def sqF : Fin 1 → MvPolynomial (Fin 2) ℂ := fun _ => MvPolynomial.X 1 ^ 2 - MvPolynomial.X 0 ^ 2

/-- The homotopy of the solve of `x^2 - 1`. -/
noncomputable def sqLine (γ : ℚ × ℚ) : (Fin 2 → ℂ) × ℂ → Fin 2 → ℂ :=
  line sqF (startP (fun _ : Fin 1 => 2) fun _ => ratValue (1, 2)) (fun j => if j.1 = 0 then 2 else 1) (gammaVal γ)

theorem setup_sqm (simp : Node → Node) (γ : ℚ × ℚ) :
    ∃ w', systemSetup simp (choices γ) 9 0 1 2 3 4 5 (ww sqm) = some w' ∧ Computes simp w' 5 2 (sqLine γ) := by
  obtain ⟨F, hF, hfun, hall⟩ := bridge simp _ (ww sqm) (by simp [SafeRun, Safe]) (run_ww simp sqm)
    (choices (0, 0)) 9 0 1 2 3 4 5 _ [0] (by simp) (by simp [choices]) squareTarget_sqm
    (generic_sqm (0, 0)).degrees
  obtain ⟨w', h1, h2, -, -⟩ := hall γ
  have haff : affine F = fun y _ => y 0 ^ 2 - 1 := ComputesFun.unique hfun (computes_sqm simp)
  have hF0 : F 0 = MvPolynomial.X 1 ^ 2 - MvPolynomial.X 0 ^ 2 := by
    have hz : (F 0 - (MvPolynomial.X 1 ^ 2 - MvPolynomial.X 0 ^ 2)) * MvPolynomial.X 0 = 0 := by
      apply MvPolynomial.funext
      intro x
      simp only [map_mul, map_sub, map_pow, MvPolynomial.eval_X, map_zero]
      by_cases h0 : x 0 = 0
      · rw [h0, mul_zero]
      have hx : x = x 0 • (Fin.cons 1 (fun _ => x 1 / x 0) : Fin 2 → ℂ) := by
        ext j
        fin_cases j
        · simp
        · simp [mul_div_cancel₀ _ h0]
      have h3 := congrFun (congrFun haff fun _ => x 1 / x 0) 0
      simp only [affine] at h3
      have h4 := hF 0
      rw [degsOf_sqm] at h4
      have h5 : MvPolynomial.eval x (F 0) = x 0 ^ 2 * ((x 1 / x 0) ^ 2 - 1) := by
        rw [← h3]
        conv_lhs => rw [hx]
        exact eval_smul_homogeneous h4 _ _
      rw [h5]
      field_simp
      ring
    have := mul_eq_zero.1 hz
    exact sub_eq_zero.1 (this.resolve_right (MvPolynomial.X_ne_zero _))
  have hFs : F = sqF := by
    funext j
    obtain rfl : j = 0 := Subsingleton.elim (α := Fin 1) _ _
    exact hF0
  have hd : (fun j : Fin [0].length => (degsOf (ww sqm) 0 [0]).getD j 0) = fun _ => 2 := by
    funext j
    obtain rfl : j = 0 := Subsingleton.elim (α := Fin 1) _ _
    rw [degsOf_sqm]
    rfl
  rw [hFs, hd] at h2
  exact ⟨w', h1, fun x s junk hj => h2 x s junk hj⟩

/-- **C147 (sharp).** Rays have to be excluded: for `x^2 - 1`, generic choices and `γ = -1`, the homotopy has
a singular zero at time 1/2. -/
theorem C147_sharp (simp : Node → Node) : Generic (ww sqm) 0 [0] (choices (-1, 0)) ∧
    ∃ w' H, systemSetup simp (choices (-1, 0)) 9 0 1 2 3 4 5 (ww sqm) = some w' ∧
      Computes simp w' 5 2 H ∧ ∃ x, H (x, 1 / 2) = 0 ∧ ¬ IsUnit (jacV H (x, 1 / 2)) := by
  refine ⟨generic_sqm _, ?_⟩
  obtain ⟨w', h1, h2⟩ := setup_sqm simp (-1, 0)
  refine ⟨w', _, h1, h2, ![0, 1], ?_, ?_⟩
  · rw [sqLine, line_zero]
    refine ⟨fun j => ?_, by simp [dotProduct, Fin.sum_univ_succ]⟩
    obtain rfl : j = 0 := Subsingleton.elim (α := Fin 1) _ _
    rw [eval_startP, sqF]
    simp [gammaVal]
    norm_num
  · rw [sqLine, isUnit_jacV_line, not_not]
    refine Matrix.det_eq_zero_of_row_eq_zero (0 : Fin 2) fun j => ?_
    have e0 : (0 : Fin 2) = Fin.castSucc (0 : Fin 1) := rfl
    rw [lineM, Matrix.of_apply, e0, Fin.lastCases_castSucc, sqF, startP]
    fin_cases j <;>
      simp [gammaVal, Derivation.leibniz_pow, Derivation.leibniz, MvPolynomial.pderiv_X] <;> norm_num

end B2.Alg.Htp
