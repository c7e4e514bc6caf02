import Verif.PropsInexact
import Verif.Rounding
import Mathlib.Data.Int.Log

/-!
# Property C115: convergence in rounded arithmetic

The vectors of the program are elements of any type `V` with any operations `+`, `-`, `•` and any steps; `val` gives the
real vector an element stands for.  Nothing is required of the operations except that their results are close to those
of exact arithmetic as long as the operands are not too large: no associativity, no distributivity, no cancellation.  The
values that `solve()` returns then approach the exact time stepping with the same factors as in exact arithmetic
(C93), up to an explicit multiple of the error of a single operation.

`C115_float_dahlquist` models the shipped Dahlquist problem with every operation of the vector class and of the time
stepper rounded.
-/

set_option linter.unusedSectionVars false

namespace Pymgrit
open Cfg Sys Matrix Lin

section
variable {V K W T N : Type} [LinearOrder T] [Inhabited T]

/-- The solver in exact arithmetic: steps `ideal`, weight `ω`, copying transfers.  (The norms play no role.) -/
def Cfg.ideally [Zero N] (E : Cfg V K T N) (val : V → W) (ideal : Nat → W → T → T → W) (ω : ℝ) : Cfg W ℝ T N where
  ts := E.ts
  step := ideal
  R := fun _ x => x
  I := fun _ x => x
  cf := E.cf
  w := ω
  start := fun l => val (E.start l)
  zero := fun l => val (E.zero l)
  guess := fun i => val (E.guess i)
  cyc := E.cyc
  nested := E.nested
  maxIter := E.maxIter
  convCrit := E.convCrit
  norm := fun _ => 0
  tnorm := E.tnorm
  ltTol := E.ltTol
  outLvl := E.outLvl
  ord := E.ord
  P := E.P
  instr := E.instr

/-- The range of numbers needed, in units of the size of solution, source and initial error, see `C115_room_two`. -/
noncomputable def numRange [AddCommGroup W] [Module ℝ W] (E : Cfg W ℝ T N) (κ : ℝ) : ℝ :=
  room κ (relaxFactor E) (fun l => E.cf l) E.cyc (E.ts.length - 1)

variable [Add V] [Sub V] [SMul K V] [One K] [Sub K] [Zero N] [AddCommGroup W] [Module ℝ W]

/-- Operations and steps with errors of at most `err a` for operands whose sizes add up to `a`, each at most `M`;
transfers copy. -/
structure Rounded (E : Cfg V K T N) (val : V → W) (ideal : Nat → W → T → T → W) (ω : ℝ) (p : Seminorm ℝ W) (M : ℝ)
    (err : ℝ → ℝ) (φ : ℝ) : Prop where
  R : ∀ l, l + 1 < E.ts.length → ∀ x, val (E.R l x) = val x
  I : ∀ l, l + 1 < E.ts.length → ∀ x, val (E.I l x) = val x
  add : ∀ x y, p (val x) ≤ M → p (val y) ≤ M → p (val (x + y) - (val x + val y)) ≤ err (p (val x) + p (val y))
  sub : ∀ x y, p (val x) ≤ M → p (val y) ≤ M → p (val (x - y) - (val x - val y)) ≤ err (p (val x) + p (val y))
  relax : ∀ x y, p (val x) ≤ M → p (val y) ≤ M →
    p (val (E.w • x + (1 - E.w) • y) - (ω • val x + (1 - ω) • val y)) ≤ err (p (val x) + p (val y))
  step : ∀ l i x, l < E.ts.length → i + 1 < npts E.ts l → p (val x) ≤ M →
    p (val (E.step l x (tAt (grid E.ts l) i) (tAt (grid E.ts l) (i + 1)))
      - ideal l (val x) (tAt (grid E.ts l) i) (tAt (grid E.ts l) (i + 1))) ≤ err (p (val x) + φ)

variable {E : Cfg V K T N}

/-- C115.  Every operation has an error of at most `ε` for operands of size at most `M`.  Sizes are measured in `p`, the
supremum of seminorms `q f` for each of which the exact steps satisfy the hypotheses of C93.  `D`: errors at the coarse
points after the constructor, `Q`: size of the exact solution, `φ`: size of the source.  If `M` is large enough, the
returned values differ from exact time stepping by at most `q ^ m D` plus a multiple of `ε`. -/
theorem C115_absolute (h : E.Good) (hmax : 0 < E.maxIter) (hL : 1 < E.ts.length)
    (hadj : ∀ l, l + 1 < E.ts.length → E.cf l = 0 ∨ ∀ i, i ∈ allC E.ts l → i + 1 ∉ allC E.ts l)
    {val : V → W} {ideal : Nat → W → T → T → W} {ω : ℝ} {p : Seminorm ℝ W} {ι : Type} {q : ι → Seminorm ℝ W}
    {κ φ M ε : ℝ} (hκ : 0 ≤ κ) (hε : 0 ≤ ε) (hφ : 0 ≤ φ)
    (hbelow : ∀ f x, q f x ≤ p x) (habove : ∀ x c, 0 ≤ c → (∀ f, q f x ≤ c) → p x ≤ c)
    (hA : ∀ f, Approx (E.ideally val ideal ω).sys (q f) κ)
    (hE : Rounded E val ideal ω p M (fun _ => ε) φ)
    (hsrc : ∀ l i, l < E.ts.length → i + 1 < npts E.ts l →
      p (ideal l 0 (tAt (grid E.ts l) i) (tAt (grid E.ts l) (i + 1))) ≤ φ)
    (hq : convRate (E.ideally val ideal ω) κ < 1) (D Q : ℝ)
    (hD : ∀ i, i ∈ allC E.ts 0 →
      p (val ((afterConstructor E).st.u 0 i) - timeStepping (E.ideally val ideal ω) i) ≤ D)
    (hQ : ∀ i, i < npts E.ts 0 → p (timeStepping (E.ideally val ideal ω) i) ≤ Q)
    (hM : numRange (E.ideally val ideal ω) κ * (Q + (D + inexactFactor (E.ideally val ideal ω) κ
      * (npts E.ts 0 * (6 * ε)) / (1 - convRate (E.ideally val ideal ω) κ)) + φ + npts E.ts 0 * (6 * ε)) ≤ M)
    {c : Conf E.P (Msg V N) (PState V N)} (h1 : Steps (startConf E) c) (hc : ∀ d, ¬ Step c d)
    (r : Fin E.P) (s : PState V N) (hr : c.prog r = Prog.ret s)
    (k i j : Nat) (hi : (E.info r 0).pts[k]? = some i) (hj : (E.info r 0).idx[k]? = some j) :
    p (val (s.u 0 j) - timeStepping (E.ideally val ideal ω) i)
      ≤ convRate (E.ideally val ideal ω) κ ^ s.solveIter * D
        + inexactFactor (E.ideally val ideal ω) κ * (npts E.ts 0 * (6 * ε))
          / (1 - convRate (E.ideally val ideal ω) κ) := by
  obtain ⟨a1, -, -, -, a5⟩ := returned h hmax h1 hc r s hr
  obtain ⟨b1, b2⟩ := a5 k i j hi hj
  have hs0 : (afterConstructor E).st.u 0 0 = E.start 0 := start_value h 0
  set G := E.ideally val ideal ω with hG
  let Φ : Nat → Nat → W → W := fun l i x => ideal l x (tAt (grid E.ts l) (i - 1)) (tAt (grid E.ts l) i)
  have eS : G.sys = E.sys.over Φ ω := rfl
  have H : RoundHyp E.sys Φ ω val p q κ φ M ε (npts E.ts 0 * (6 * ε)) :=
    { wf := E.sys_wf h.valid
      below := hbelow
      above := habove
      approx := hA
      nonneg := hκ
      R := hE.R
      I := hE.I
      adj := hadj
      eps := hε
      src := hφ
      zero := fun l i hl hi1 hi2 => by
        obtain ⟨i, rfl⟩ : ∃ j, i = j + 1 := ⟨i - 1, by omega⟩
        exact hsrc l i hl hi2
      step := fun l i x hl hi1 hi2 hx => by
        obtain ⟨i, rfl⟩ : ∃ j, i = j + 1 := ⟨i - 1, by omega⟩
        exact hE.step l i x hl hi2 hx
      add := hE.add
      sub := hE.sub
      relax := hE.relax
      size := fun l hl => mul_le_mul_of_nonneg_right (Nat.cast_le.2 (npts_le (E := G) h.valid l hl)) (by positivity) }
  have hsol : exactSol (E.sys.over Φ ω) 0 ((afterConstructor E).st.map val) = timeStepping G := by
    rw [exactSol_zero (fun h => absurd rfl h)]
    show seqSol _ (val ((afterConstructor E).st.u 0 0)) = _
    rw [hs0]
    rfl
  have hrelax : ∀ l, 0 ≤ relaxFactor G l := relaxFactor_nonneg G
  have hq0 : 0 ≤ convRate G κ := convRate_nonneg G hκ
  have hp0 : 0 ≤ inexactFactor G κ * (npts E.ts 0 * (6 * ε)) :=
    mul_nonneg (pert_nonneg hκ hrelax (fun l => Nat.cast_nonneg _) _ _) (by positivity)
  have hgeo : ∀ m, ∑ j ∈ Finset.range m, convRate G κ ^ j ≤ 1 / (1 - convRate G κ) := by
    intro m
    rw [geom_sum_eq hq.ne, ← neg_div_neg_eq, neg_sub, neg_sub]
    refine div_le_div_of_nonneg_right ?_ (by linarith)
    have := pow_nonneg hq0 m
    linarith
  have hgeo' : ∀ m, (∑ j ∈ Finset.range m, convRate G κ ^ j) * (inexactFactor G κ * (npts E.ts 0 * (6 * ε)))
      ≤ inexactFactor G κ * (npts E.ts 0 * (6 * ε)) / (1 - convRate G κ) := by
    intro m
    rw [← one_div_mul_eq_div (1 - convRate G κ) (inexactFactor G κ * (npts E.ts 0 * (6 * ε)))]
    exact mul_le_mul_of_nonneg_right (hgeo m) hp0
  have hD0 : 0 ≤ D := (apply_nonneg p _).trans (hD 0 (List.mem_of_getElem? ((E.sys_wf h.valid).C_zero 0 hL)))
  obtain ⟨-, c2, c3⟩ := H.iterates hL E.cyc s.solveIter (afterConstructor E).st D Q
    (D + inexactFactor G κ * (npts E.ts 0 * (6 * ε)) / (1 - convRate G κ))
    (by
      intro i hi
      rw [hsol]
      exact hD i hi)
    ⟨by rw [hsol]; exact hQ, fun h => absurd rfl h⟩
    (by
      intro j _
      refine add_le_add (mul_le_of_le_one_left hD0 (pow_le_one₀ hq0 hq.le)) (hgeo' j))
    hM
  have h2 := c2 a1 i b1
  rw [exactSol_keeps (c3.map val), hsol] at h2
  rw [b2]
  exact h2.trans (add_le_add le_rfl (hgeo' _))

theorem one_le_numRange (G : Cfg W ℝ T N) {κ : ℝ} (hκ : 0 ≤ κ) : 1 ≤ numRange G κ := by
  have hr := relaxFactor_nonneg G
  have hc : ∀ l, (0 : ℝ) ≤ (fun l => (G.cf l : ℝ)) l := fun l => Nat.cast_nonneg _
  unfold numRange room
  generalize G.ts.length - 1 = d
  cases d with
  | zero => cases G.cyc <;> exact le_rfl
  | succ d =>
    have g := growth_nonneg hκ hr hc 0
    have v1 := rateV_nonneg hκ hr 1 d
    have v2 := rateF_nonneg hκ hr 1 d
    have v3 := pertV_nonneg hκ hr hc 1 d
    have v4 := pertF_nonneg hκ hr hc 1 d
    have v5 := (roomV_pos hκ hr hc 1 d).le
    have v6 := (roomF_pos hκ hr hc 1 d).le
    cases G.cyc
    · simp only [roomV]
      refine le_trans (by norm_num : (1 : ℝ) ≤ 4 * 8) (mul_le_mul g ?_ (by norm_num) (by linarith))
      linarith
    · simp only [roomF]
      refine le_trans (by norm_num : (1 : ℝ) ≤ 4 * 8) (mul_le_mul g ?_ (by norm_num) (by linarith))
      have : 0 ≤ rateF κ (relaxFactor G) 1 d * rateV κ (relaxFactor G) 1 d := by positivity
      have : 0 ≤ rateV κ (relaxFactor G) 1 d * pertF κ (relaxFactor G) (fun l => (G.cf l : ℝ)) 1 d := by positivity
      have : 0 ≤ roomV κ (relaxFactor G) (fun l => (G.cf l : ℝ)) 1 d * (1 + rateF κ (relaxFactor G) 1 d
        + pertF κ (relaxFactor G) (fun l => (G.cf l : ℝ)) 1 d) := by positivity
      linarith

/-- C115.  Every operation has a relative error of at most `u`, as in floating-point arithmetic.  If `u` is small compared
to the number of time points, the returned values differ from exact time stepping by at most `q ^ m D` plus a multiple of
`u` times the size of solution, source and initial error. -/
theorem C115_relative (h : E.Good) (hmax : 0 < E.maxIter) (hL : 1 < E.ts.length)
    (hadj : ∀ l, l + 1 < E.ts.length → E.cf l = 0 ∨ ∀ i, i ∈ allC E.ts l → i + 1 ∉ allC E.ts l)
    {val : V → W} {ideal : Nat → W → T → T → W} {ω : ℝ} {p : Seminorm ℝ W} {ι : Type} {q : ι → Seminorm ℝ W}
    {κ φ u : ℝ} (hκ : 0 ≤ κ) (hu : 0 ≤ u) (hφ : 0 ≤ φ)
    (hbelow : ∀ f x, q f x ≤ p x) (habove : ∀ x c, 0 ≤ c → (∀ f, q f x ≤ c) → p x ≤ c)
    (hA : ∀ f, Approx (E.ideally val ideal ω).sys (q f) κ) (D Q : ℝ)
    (hE : Rounded E val ideal ω p (2 * numRange (E.ideally val ideal ω) κ * (Q + D + φ)) (fun a => u * a) φ)
    (hsrc : ∀ l i, l < E.ts.length → i + 1 < npts E.ts l →
      p (ideal l 0 (tAt (grid E.ts l) i) (tAt (grid E.ts l) (i + 1))) ≤ φ)
    (hq : convRate (E.ideally val ideal ω) κ < 1)
    (hD : ∀ i, i ∈ allC E.ts 0 →
      p (val ((afterConstructor E).st.u 0 i) - timeStepping (E.ideally val ideal ω) i) ≤ D)
    (hQ : ∀ i, i < npts E.ts 0 → p (timeStepping (E.ideally val ideal ω) i) ≤ Q)
    (hsmall : 24 * u * npts E.ts 0 * numRange (E.ideally val ideal ω) κ
      * (inexactFactor (E.ideally val ideal ω) κ / (1 - convRate (E.ideally val ideal ω) κ) + 1) ≤ 1)
    {c : Conf E.P (Msg V N) (PState V N)} (h1 : Steps (startConf E) c) (hc : ∀ d, ¬ Step c d)
    (r : Fin E.P) (s : PState V N) (hr : c.prog r = Prog.ret s)
    (k i j : Nat) (hi : (E.info r 0).pts[k]? = some i) (hj : (E.info r 0).idx[k]? = some j) :
    p (val (s.u 0 j) - timeStepping (E.ideally val ideal ω) i)
      ≤ convRate (E.ideally val ideal ω) κ ^ s.solveIter * D
        + 24 * u * npts E.ts 0 * numRange (E.ideally val ideal ω) κ
          * inexactFactor (E.ideally val ideal ω) κ / (1 - convRate (E.ideally val ideal ω) κ) * (Q + D + φ) := by
  have hρ : 1 ≤ numRange (E.ideally val ideal ω) κ := one_le_numRange _ hκ
  have hD0 : 0 ≤ D := (apply_nonneg p _).trans (hD 0 (List.mem_of_getElem? ((E.sys_wf h.valid).C_zero 0 hL)))
  have hQ0 : 0 ≤ Q := (apply_nonneg p _).trans (hQ 0 (h.valid.npos h.valid.pos))
  have hF : 0 ≤ inexactFactor (E.ideally val ideal ω) κ :=
    pert_nonneg hκ (relaxFactor_nonneg _) (fun l => Nat.cast_nonneg _) _ _
  set ρ := numRange (E.ideally val ideal ω) κ
  set F := inexactFactor (E.ideally val ideal ω) κ
  set θ := convRate (E.ideally val ideal ω) κ
  set n : ℝ := (npts E.ts 0 : ℝ)
  have hn : 0 ≤ n := Nat.cast_nonneg _
  set B := Q + D + φ with hB
  have hB0 : 0 ≤ B := by positivity
  set M := 2 * ρ * B with hMdef
  have hM0 : 0 ≤ M := by positivity
  have hBM : B ≤ M := by
    have : 1 * B ≤ 2 * ρ * B := mul_le_mul_of_nonneg_right (by linarith) hB0
    linarith
  have hφM : φ ≤ M := by linarith
  have hmono : ∀ a, a ≤ 2 * M → u * a ≤ 2 * u * M := by
    intro a ha
    have := mul_le_mul_of_nonneg_left ha hu
    linarith
  have key := C115_absolute (ε := 2 * u * M) (M := M) h hmax hL hadj hκ (by positivity) hφ hbelow habove hA
    ⟨hE.R, hE.I, fun x y hx hy => (hE.add x y hx hy).trans (hmono _ (by linarith)),
      fun x y hx hy => (hE.sub x y hx hy).trans (hmono _ (by linarith)),
      fun x y hx hy => (hE.relax x y hx hy).trans (hmono _ (by linarith)),
      fun l i x hl hi hx => (hE.step l i x hl hi hx).trans (hmono _ (by linarith))⟩ hsrc hq D Q hD hQ
    (by
      show ρ * (Q + (D + F * (n * (6 * (2 * u * M))) / (1 - θ)) + φ + n * (6 * (2 * u * M))) ≤ M
      have e : ρ * (Q + (D + F * (n * (6 * (2 * u * M))) / (1 - θ)) + φ + n * (6 * (2 * u * M)))
          = ρ * (B + 24 * u * n * ρ * (F / (1 - θ) + 1) * B) := by
        rw [hMdef, hB]; ring
      rw [e, hMdef]
      have := mul_le_mul_of_nonneg_right hsmall hB0
      have := mul_le_mul_of_nonneg_left this (show 0 ≤ ρ by linarith)
      linarith)
    h1 hc r s hr k i j hi hj
  refine key.trans (le_of_eq ?_)
  show θ ^ s.solveIter * D + F * (n * (6 * (2 * u * M))) / (1 - θ)
    = θ ^ s.solveIter * D + 24 * u * n * ρ * F / (1 - θ) * B
  rw [hMdef]
  ring

/-- C115.  Two levels, weight in `[0, 1]`, `κ = 1/3`, `ν` CF-relaxations: range `10 (23/3 ν + 77/3)`. -/
theorem C115_room_two {G : Cfg W ℝ T N} (h0 : 0 ≤ G.w) (h1 : G.w ≤ 1) (hL : G.ts.length = 2) (hcyc : G.cyc = Cycle.V) :
    numRange G (1 / 3) = 10 * (23 / 3 * G.cf 0 + 77 / 3) := by
  unfold numRange
  rw [relaxFactor_one G h0 h1, hL, hcyc]
  simp only [room, roomV, rateV, pertV, growth, Nat.reduceSub]
  ring

end


/-! ## The shipped Dahlquist problem in floating-point arithmetic -/

/-- Numbers of a machine that rounds the result of every operation with `rnd`. -/
structure Fl (rnd : ℝ → ℝ) where
  val : ℝ

namespace Fl
variable {rnd : ℝ → ℝ}

/-- `VectorDahlquist.__add__` (dahlquist.py:21-24). -/
noncomputable instance : Add (Fl rnd) := ⟨fun x y => ⟨rnd (x.val + y.val)⟩⟩

/-- `VectorDahlquist.__sub__` (dahlquist.py:26-29), and the subtraction in `1 - weight_c`. -/
noncomputable instance : Sub (Fl rnd) := ⟨fun x y => ⟨rnd (x.val - y.val)⟩⟩

/-- `VectorDahlquist.__mul__` (dahlquist.py:31-34). -/
noncomputable instance : SMul (Fl rnd) (Fl rnd) := ⟨fun a x => ⟨rnd (a.val * x.val)⟩⟩

noncomputable instance : Mul (Fl rnd) := ⟨fun x y => ⟨rnd (x.val * y.val)⟩⟩

noncomputable instance : Div (Fl rnd) := ⟨fun x y => ⟨rnd (x.val / y.val)⟩⟩

noncomputable instance : One (Fl rnd) := ⟨⟨1⟩⟩

/-- `Dahlquist.step`, method `'BE'` (dahlquist.py:88-104), with the operations of the machine: `t_stop - t_start`, the
product with `lambda`, `1 - z`, the quotient and the product with the vector are rounded. -/
noncomputable def stepBE (lam : ℝ) (u : Fl rnd) (t0 t1 : ℝ) : Fl rnd :=
  let z : Fl rnd := (⟨t1⟩ - ⟨t0⟩) * ⟨lam⟩
  1 / (1 - z) * u

/-- Relative error of the rounded step. -/
theorem stepBE_error {e : ℝ} (he : 0 ≤ e) (he1 : e ≤ 1 / 100) (hrnd : ∀ x, |rnd x - x| ≤ e * |x|) {lam : ℝ}
    (hlam : lam ≤ 0) (x : Fl rnd) {t t' : ℝ} (ht : t ≤ t') :
    |(stepBE lam x t t').val - Apps.dahlquist .BE lam x.val t t'| ≤ 6 * e * |x.val| := by
  show |rnd (rnd (1 / rnd (1 - rnd (rnd (t' - t) * lam))) * x.val) - 1 / (1 - (t' - t) * lam) * x.val| ≤ _
  set y := x.val
  set a := rnd (t' - t)
  set b := rnd (a * lam)
  set c := rnd (1 - b)
  set g := rnd (1 / c)
  set z := -((t' - t) * lam) with hz
  have hz0 : 0 ≤ z := by have := mul_nonneg (sub_nonneg.2 ht) (neg_nonneg.2 hlam); linarith
  rw [show 1 - (t' - t) * lam = 1 + z by rw [hz]; ring]
  set d := 1 + z with hd
  have hd1 : 1 ≤ d := by linarith
  have hd0 : 0 < d := by linarith
  have h1 : |a * lam + z| ≤ e * z := by
    have := hrnd (t' - t)
    rw [show a * lam + z = (a - (t' - t)) * lam by rw [hz]; ring, abs_mul, abs_of_nonpos hlam]
    rw [abs_of_nonneg (sub_nonneg.2 ht)] at this
    calc _ ≤ e * (t' - t) * -lam := mul_le_mul_of_nonneg_right this (by linarith)
      _ = _ := by rw [hz]; ring
  have h2 : |b + z| ≤ (201 / 100) * e * z := by
    have h3 := hrnd (a * lam)
    have h4 : |a * lam| ≤ (1 + e) * z := by
      have : |a * lam| ≤ |a * lam + z| + |z| := by
        have := abs_sub (a * lam + z) z
        rwa [add_sub_cancel_right] at this
      rw [abs_of_nonneg hz0] at this
      linarith
    have h5 : |b + z| ≤ |b - a * lam| + |a * lam + z| := by
      have := abs_add_le (b - a * lam) (a * lam + z)
      rwa [show b - a * lam + (a * lam + z) = b + z by ring] at this
    have h6 : e * |a * lam| ≤ e * ((1 + e) * z) := mul_le_mul_of_nonneg_left h4 he
    have h7 : e * (e * z) ≤ 1 / 100 * (e * z) := mul_le_mul_of_nonneg_right he1 (by positivity)
    nlinarith
  have h3 : |(1 - b) - d| ≤ (201 / 100) * e * d := by
    rw [show (1 - b) - d = -(b + z) by rw [hd]; ring, abs_neg]
    refine h2.trans (mul_le_mul_of_nonneg_left (by linarith) (by positivity))
  have h4 : |c - d| ≤ (304 / 100) * e * d := by
    have h5 := hrnd (1 - b)
    have h6 : |1 - b| ≤ d + (201 / 100) * e * d := by
      have := abs_add_le (1 - b - d) d
      rw [sub_add_cancel, abs_of_pos hd0] at this
      linarith
    have h7 : |c - d| ≤ |c - (1 - b)| + |(1 - b) - d| := by
      have := abs_add_le (c - (1 - b)) ((1 - b) - d)
      rwa [show c - (1 - b) + ((1 - b) - d) = c - d by ring] at this
    have h8 := mul_le_mul_of_nonneg_left h6 he
    have h9 : e * (e * d) ≤ 1 / 100 * (e * d) := mul_le_mul_of_nonneg_right he1 (by positivity)
    nlinarith
  have hc : (96 / 100) * d ≤ c := by
    have h5 := (abs_le.1 h4).1
    have h9 : e * d ≤ 1 / 100 * d := mul_le_mul_of_nonneg_right he1 (by positivity)
    nlinarith
  have hc0 : 0 < c := by nlinarith
  have h5 : |1 / c - 1 / d| ≤ (317 / 100) * e / d := by
    rw [div_sub_div _ _ hc0.ne' hd0.ne', abs_div, abs_of_pos (mul_pos hc0 hd0), div_le_div_iff₀ (mul_pos hc0 hd0) hd0,
      one_mul, mul_one, abs_sub_comm]
    have h6 : |c - d| * d ≤ (304 / 100) * e * d * d := mul_le_mul_of_nonneg_right h4 hd0.le
    have h7 : (317 / 100) * e * ((96 / 100) * d * d) ≤ (317 / 100) * e * (c * d) :=
      mul_le_mul_of_nonneg_left (mul_le_mul_of_nonneg_right hc hd0.le) (by positivity)
    have h8 : 0 ≤ e * (d * d) := by positivity
    nlinarith
  set D := 1 / d with hD
  have hD0 : 0 < D := by positivity
  have hD1 : D ≤ 1 := by rw [hD, div_le_one hd0]; exact hd1
  have h5 : |1 / c - D| ≤ (317 / 100) * (e * D) := by
    refine h5.trans (le_of_eq ?_)
    rw [hD]; ring
  have hee : e * (e * D) ≤ 1 / 100 * (e * D) := mul_le_mul_of_nonneg_right he1 (by positivity)
  have h6 : |g - D| ≤ (421 / 100) * (e * D) := by
    have h7 := hrnd (1 / c)
    have h8 : |1 / c| ≤ D + (317 / 100) * (e * D) := by
      have := abs_add_le (1 / c - D) D
      rw [sub_add_cancel, abs_of_pos hD0] at this
      linarith
    have h9 := mul_le_mul_of_nonneg_left h8 he
    have h10 : |g - D| ≤ |g - 1 / c| + |1 / c - D| := by
      have := abs_add_le (g - 1 / c) (1 / c - D)
      rwa [sub_add_sub_cancel] at this
    nlinarith
  have h7 : |g * y - D * y| ≤ (421 / 100) * (e * D) * |y| := by
    rw [← sub_mul, abs_mul]
    exact mul_le_mul_of_nonneg_right h6 (abs_nonneg _)
  have h8 : |g * y| ≤ (D + (421 / 100) * (e * D)) * |y| := by
    rw [abs_mul]
    refine mul_le_mul_of_nonneg_right ?_ (abs_nonneg _)
    have := abs_add_le (g - D) D
    rw [sub_add_cancel, abs_of_pos hD0] at this
    linarith
  have h9 : |rnd (g * y) - D * y| ≤ |rnd (g * y) - g * y| + |g * y - D * y| := by
    have := abs_add_le (rnd (g * y) - g * y) (g * y - D * y)
    rwa [sub_add_sub_cancel] at this
  have h10 := hrnd (g * y)
  have h11 := mul_le_mul_of_nonneg_left h8 he
  have h12 : e * ((D + (421 / 100) * (e * D)) * |y|) ≤ (105 / 100) * (e * D) * |y| := by
    rw [← mul_assoc]
    refine mul_le_mul_of_nonneg_right ?_ (abs_nonneg _)
    nlinarith
  have h13 : e * D * |y| ≤ e * |y| := mul_le_mul_of_nonneg_right (mul_le_of_le_one_right he hD1) (abs_nonneg _)
  have h14 : 0 ≤ e * |y| := by positivity
  nlinarith

/-- The relative error of the weighted sum in `c_relax`. -/
theorem relax_error {e : ℝ} (he : 0 ≤ e) (he1 : e ≤ 1 / 100) (hrnd : ∀ x, |rnd x - x| ≤ e * |x|) {w : Fl rnd}
    (h0 : 0 ≤ w.val) (h1 : w.val ≤ 1) (x y : Fl rnd) :
    |(w • x + (1 - w) • y).val - (w.val * x.val + (1 - w.val) * y.val)| ≤ 6 * e * (|x.val| + |y.val|) := by
  show |rnd (rnd (w.val * x.val) + rnd (rnd (1 - w.val) * y.val)) - (w.val * x.val + (1 - w.val) * y.val)| ≤ _
  generalize w.val = ω at *
  generalize x.val = a at *
  generalize y.val = b at *
  set v := rnd (1 - ω)
  have ha := abs_nonneg a
  have hb := abs_nonneg b
  have hea : 0 ≤ e * |a| := by positivity
  have heb : 0 ≤ e * |b| := by positivity
  have q1 : |ω * a| ≤ |a| := by
    rw [abs_mul, abs_of_nonneg h0]; exact mul_le_of_le_one_left ha h1
  have s1 : |rnd (ω * a) - ω * a| ≤ e * |a| := (hrnd _).trans (mul_le_mul_of_nonneg_left q1 he)
  have hv : |v - (1 - ω)| ≤ e := by
    refine (hrnd _).trans ?_
    rw [abs_of_nonneg (by linarith)]
    exact mul_le_of_le_one_right he (by linarith)
  have s2 : |v * b - (1 - ω) * b| ≤ e * |b| := by
    rw [← sub_mul, abs_mul]
    exact mul_le_mul_of_nonneg_right hv hb
  have q2 : |(1 - ω) * b| ≤ |b| := by
    rw [abs_mul, abs_of_nonneg (by linarith)]; exact mul_le_of_le_one_left hb (by linarith)
  have q3 : |v * b| ≤ |b| + e * |b| := by
    have := abs_add_le (v * b - (1 - ω) * b) ((1 - ω) * b)
    rw [sub_add_cancel] at this
    linarith
  have hee : e * (e * |b|) ≤ 1 / 100 * (e * |b|) := mul_le_mul_of_nonneg_right he1 heb
  have hee' : e * (e * |a|) ≤ 1 / 100 * (e * |a|) := mul_le_mul_of_nonneg_right he1 hea
  have s3 : |rnd (v * b) - v * b| ≤ 101 / 100 * (e * |b|) := by
    refine (hrnd _).trans ((mul_le_mul_of_nonneg_left q3 he).trans ?_)
    linarith
  have s4 : |rnd (v * b) - (1 - ω) * b| ≤ 201 / 100 * (e * |b|) := by
    have := abs_add_le (rnd (v * b) - v * b) (v * b - (1 - ω) * b)
    rw [sub_add_sub_cancel] at this
    linarith
  set m := rnd (ω * a)
  set n := rnd (v * b)
  have s5 : |m + n - (ω * a + (1 - ω) * b)| ≤ e * |a| + 201 / 100 * (e * |b|) := by
    have := abs_add_le (m - ω * a) (n - (1 - ω) * b)
    rw [show m - ω * a + (n - (1 - ω) * b) = m + n - (ω * a + (1 - ω) * b) by ring] at this
    linarith
  have s6 : |m + n| ≤ |a| + |b| + e * |a| + 201 / 100 * (e * |b|) := by
    have t1 := abs_add_le (m + n - (ω * a + (1 - ω) * b)) (ω * a + (1 - ω) * b)
    rw [sub_add_cancel] at t1
    have t2 := abs_add_le (ω * a) ((1 - ω) * b)
    linarith
  have s7 : |rnd (m + n) - (m + n)| ≤ 101 / 100 * (e * |a|) + 104 / 100 * (e * |b|) := by
    refine (hrnd _).trans ((mul_le_mul_of_nonneg_left s6 he).trans ?_)
    linarith
  have := abs_add_le (rnd (m + n) - (m + n)) (m + n - (ω * a + (1 - ω) * b))
  rw [sub_add_sub_cancel] at this
  linarith

end Fl

/-- C115.  The shipped Dahlquist problem with `λ ≤ 0` and backward Euler on a machine whose operations have a relative
error of at most `e` (unit roundoff): every operation of the vectors, of the weighted relaxation and of the time stepper
is rounded, and no law of arithmetic is used.  The returned values differ from the exact solution of the fine backward
Euler scheme by at most `q ^ m D` plus a multiple of `e`. -/
theorem C115_float_dahlquist {N : Type} [Zero N] {rnd : ℝ → ℝ} {E : Cfg (Fl rnd) (Fl rnd) ℝ N}
    (h : E.Good) (hmax : 0 < E.maxIter) (hL : 1 < E.ts.length)
    (hadj : ∀ l, l + 1 < E.ts.length → E.cf l = 0 ∨ ∀ i, i ∈ allC E.ts l → i + 1 ∉ allC E.ts l)
    (hR : ∀ l, l + 1 < E.ts.length → ∀ x, E.R l x = x) (hI : ∀ l, l + 1 < E.ts.length → ∀ x, E.I l x = x)
    (hw0 : 0 ≤ E.w.val) (hw1 : E.w.val ≤ 1)
    {e : ℝ} (he : 0 ≤ e) (he1 : e ≤ 1 / 100) (hrnd : ∀ x, |rnd x - x| ≤ e * |x|)
    {lam : ℝ} (hlam : lam ≤ 0)
    (hstep : ∀ l u t t', l < E.ts.length → t ≤ t' → E.step l u t t' = Fl.stepBE lam u t t')
    (hq : convRate (E.ideally Fl.val (fun _ => Apps.dahlquist .BE lam) E.w.val) (1 / 3) < 1)
    (hnest : E.nested = false) (D : ℝ) (hD0 : 0 ≤ D)
    (hD : ∀ i, i ∈ allC E.ts 0 → i ≠ 0 → |(E.guess i).val
      - timeStepping (E.ideally Fl.val (fun _ => Apps.dahlquist .BE lam) E.w.val) i| ≤ D)
    (hsmall : 144 * e * npts E.ts 0
      * numRange (E.ideally Fl.val (fun _ => Apps.dahlquist .BE lam) E.w.val) (1 / 3)
      * (inexactFactor (E.ideally Fl.val (fun _ => Apps.dahlquist .BE lam) E.w.val) (1 / 3)
        / (1 - convRate (E.ideally Fl.val (fun _ => Apps.dahlquist .BE lam) E.w.val) (1 / 3)) + 1) ≤ 1)
    {c : Conf E.P (Msg (Fl rnd) N) (PState (Fl rnd) N)} (h1 : Steps (startConf E) c) (hc : ∀ d, ¬ Step c d)
    (r : Fin E.P) (s : PState (Fl rnd) N) (hr : c.prog r = Prog.ret s)
    (k i j : Nat) (hi : (E.info r 0).pts[k]? = some i) (hj : (E.info r 0).idx[k]? = some j) :
    |(s.u 0 j).val - timeStepping (E.ideally Fl.val (fun _ => Apps.dahlquist .BE lam) E.w.val) i|
      ≤ convRate (E.ideally Fl.val (fun _ => Apps.dahlquist .BE lam) E.w.val) (1 / 3) ^ s.solveIter * D
        + 144 * e * npts E.ts 0
          * numRange (E.ideally Fl.val (fun _ => Apps.dahlquist .BE lam) E.w.val) (1 / 3)
          * inexactFactor (E.ideally Fl.val (fun _ => Apps.dahlquist .BE lam) E.w.val) (1 / 3)
          / (1 - convRate (E.ideally Fl.val (fun _ => Apps.dahlquist .BE lam) E.w.val) (1 / 3))
          * (|(E.start 0).val| + D) := by
  set G := E.ideally Fl.val (fun _ => Apps.dahlquist .BE lam) E.w.val with hG
  let p : Seminorm ℝ ℝ := (normSeminorm ℝ ℝ).comp LinearMap.id
  have hp : ∀ x, p x = |x| := fun x => rfl
  have hA : Approx G.sys p (1 / 3) :=
    (dahlquist_damped (E := G) fun _ _ _ _ _ => rfl).approx (E := G) h.valid (by linarith)
  have h0 : NoSource G.sys p := by
    intro l i _ _ _
    rw [hp]
    show |Apps.dahlquist .BE lam 0 _ _| = 0
    simp [Apps.dahlquist]
  have he6 : e ≤ 6 * e := by linarith
  have key := C115_relative (ι := Unit) (q := fun _ => p) (p := p) (u := 6 * e) (φ := 0) (ω := E.w.val)
    (val := Fl.val) (ideal := fun _ => Apps.dahlquist .BE lam) (κ := 1 / 3) h hmax hL hadj (by norm_num)
    (by positivity) le_rfl (fun _ _ => le_rfl) (fun _ _ _ hx => hx ()) (fun _ => hA) D |(E.start 0).val|
    { R := fun l hl x => by rw [hR l hl]
      I := fun l hl x => by rw [hI l hl]
      add := fun x y _ _ => by
        rw [hp, hp, hp]
        refine (hrnd (x.val + y.val)).trans ?_
        have := abs_add_le x.val y.val
        have := abs_nonneg (x.val + y.val)
        exact mul_le_mul he6 ‹_› ‹_› (by positivity)
      sub := fun x y _ _ => by
        rw [hp, hp, hp]
        refine (hrnd (x.val - y.val)).trans ?_
        have := abs_sub x.val y.val
        have := abs_nonneg (x.val - y.val)
        exact mul_le_mul he6 ‹_› ‹_› (by positivity)
      relax := fun x y _ _ => by
        rw [hp, hp, hp]
        exact Fl.relax_error he he1 hrnd hw0 hw1 x y
      step := fun l i x hl hi _ => by
        have ht : tAt (grid E.ts l) i ≤ tAt (grid E.ts l) (i + 1) := tAt_mono (h.valid.sorted l) (by omega) hi
        rw [hp, hp, add_zero, hstep l x _ _ hl ht]
        exact Fl.stepBE_error he he1 hrnd hlam x ht }
    (fun l i hl hi => (h0 l (i + 1) hl (by omega) hi).le) hq
    (by
      intro i hi
      rw [constructor_value hnest, hp]
      split
      · next e0 =>
        subst e0
        show |(E.start 0).val - (E.start 0).val| ≤ D
        rw [sub_self, abs_zero]; exact hD0
      · next e0 => rw [if_pos rfl]; exact hD i hi e0)
    (fun i hi => h0.seq hA (l := 0) (by show 0 < E.ts.length; omega) (G.start 0) i hi)
    (by
      refine le_trans (le_of_eq ?_) hsmall
      ring) h1 hc r s hr k i j hi hj
  refine key.trans (le_of_eq ?_)
  rw [add_zero]
  ring

/-! ## Vectors: the heat equation -/

section
variable {V K N : Type} [Add V] [Sub V] [SMul K V] [One K] [Sub K] [Zero N]
variable {ι : Type} [Fintype ι] [DecidableEq ι] {E : Cfg V K ℝ N}

/-- Euclidean norm. -/
noncomputable def euclid (x : ι → ℝ) : ℝ := √(∑ y, x y ^ 2)

theorem euclid_nonneg (x : ι → ℝ) : 0 ≤ euclid x := Real.sqrt_nonneg _

/-- C115.  Backward Euler for a symmetric matrix with nonnegative eigenvalues on a machine: the sums, differences and
weighted sums of vectors and the residuals of the linear systems have relative errors of at most `u` in the Euclidean
norm for vectors of norm at most `M`.  `ideal` is the time stepper with exact solutions, `D` bounds the errors of the
initial guess at the coarse points, `Q` the exact solution, `φ` the source. -/
theorem C115_symmetric (h : E.Good) (hmax : 0 < E.maxIter) (hL : 1 < E.ts.length)
    (hadj : ∀ l, l + 1 < E.ts.length → E.cf l = 0 ∨ ∀ i, i ∈ allC E.ts l → i + 1 ∉ allC E.ts l)
    {A : Matrix ι ι ℝ} (hA : A.transpose = A) (hpos : ∀ (v : ι → ℝ) (μ : ℝ), v ≠ 0 → A.mulVec v = μ • v → 0 ≤ μ)
    (b : Nat → ℝ → ℝ → ι → ℝ) (ideal : Nat → (ι → ℝ) → ℝ → ℝ → ι → ℝ)
    (hideal : ∀ l u t t', l < E.ts.length → t ≤ t' → Solves ((t' - t) • A + 1) (u + b l t t') (ideal l u t t'))
    {val : V → ι → ℝ} {ω u φ D Q M : ℝ} (hu : 0 ≤ u) (hφ : 0 ≤ φ)
    (hb : ∀ l i, l < E.ts.length → i + 1 < npts E.ts l →
      euclid (b l (tAt (grid E.ts l) i) (tAt (grid E.ts l) (i + 1))) ≤ φ)
    (hR : ∀ l, l + 1 < E.ts.length → ∀ x, val (E.R l x) = val x)
    (hI : ∀ l, l + 1 < E.ts.length → ∀ x, val (E.I l x) = val x)
    (hadd : ∀ x y, euclid (val x) ≤ M → euclid (val y) ≤ M →
      euclid (val (x + y) - (val x + val y)) ≤ u * (euclid (val x) + euclid (val y)))
    (hsub : ∀ x y, euclid (val x) ≤ M → euclid (val y) ≤ M →
      euclid (val (x - y) - (val x - val y)) ≤ u * (euclid (val x) + euclid (val y)))
    (hrelax : ∀ x y, euclid (val x) ≤ M → euclid (val y) ≤ M →
      euclid (val (E.w • x + (1 - E.w) • y) - (ω • val x + (1 - ω) • val y)) ≤ u * (euclid (val x) + euclid (val y)))
    (hstep : ∀ l i x t t', l < E.ts.length → i + 1 < npts E.ts l → t = tAt (grid E.ts l) i →
      t' = tAt (grid E.ts l) (i + 1) → euclid (val x) ≤ M →
      euclid (((t' - t) • A + 1).mulVec (val (E.step l x t t')) - (val x + b l t t')) ≤ u * (euclid (val x) + φ))
    (hq : convRate (E.ideally val ideal ω) (1 / 3) < 1) (hnest : E.nested = false) (hD0 : 0 ≤ D)
    (hD : ∀ i, i ∈ allC E.ts 0 → i ≠ 0 →
      euclid (val (E.guess i) - timeStepping (E.ideally val ideal ω) i) ≤ D)
    (hQ : ∀ i, i < npts E.ts 0 → euclid (timeStepping (E.ideally val ideal ω) i) ≤ Q)
    (hM : √(Fintype.card ι) * (2 * numRange (E.ideally val ideal ω) (1 / 3) * (Q + D + φ)) ≤ M)
    (hsmall : 24 * (√(Fintype.card ι) * u) * npts E.ts 0 * numRange (E.ideally val ideal ω) (1 / 3)
      * (inexactFactor (E.ideally val ideal ω) (1 / 3)
        / (1 - convRate (E.ideally val ideal ω) (1 / 3)) + 1) ≤ 1)
    {c : Conf E.P (Msg V N) (PState V N)} (h1 : Steps (startConf E) c) (hc : ∀ d, ¬ Step c d)
    (r : Fin E.P) (s : PState V N) (hr : c.prog r = Prog.ret s)
    (k i j : Nat) (hi : (E.info r 0).pts[k]? = some i) (hj : (E.info r 0).idx[k]? = some j) :
    euclid (val (s.u 0 j) - timeStepping (E.ideally val ideal ω) i)
      ≤ √(Fintype.card ι) * (convRate (E.ideally val ideal ω) (1 / 3) ^ s.solveIter * D
        + 24 * (√(Fintype.card ι) * u) * npts E.ts 0 * numRange (E.ideally val ideal ω) (1 / 3)
          * inexactFactor (E.ideally val ideal ω) (1 / 3)
          / (1 - convRate (E.ideally val ideal ω) (1 / 3)) * (Q + D + φ)) := by
  obtain ⟨f, μ, hμ, hparseval, hfA⟩ := eigen_coords hA hpos
  set G := E.ideally val ideal ω with hG
  let q : ι → Seminorm ℝ (ι → ℝ) := fun k => (normSeminorm ℝ ℝ).comp (f k)
  let p : Seminorm ℝ (ι → ℝ) := Finset.univ.sup q
  set m : ℝ := √(Fintype.card ι) with hm
  have hm0 : 0 ≤ m := Real.sqrt_nonneg _
  have hqa : ∀ k x, q k x = |f k x| := fun _ _ => rfl
  have hbelow : ∀ k x, q k x ≤ p x := fun k x => Seminorm.le_finset_sup_apply (Finset.mem_univ k)
  have habove : ∀ x c, 0 ≤ c → (∀ k, q k x ≤ c) → p x ≤ c := fun x c hc hk =>
    Seminorm.finset_sup_apply_le hc fun k _ => hk k
  have hle : ∀ k (v : ι → ℝ), |f k v| ≤ euclid v := by
    intro k v
    unfold euclid
    rw [← hparseval v, ← Real.sqrt_sq_eq_abs]
    exact Real.sqrt_le_sqrt (Finset.single_le_sum (f := fun p => (f p v) ^ 2) (fun _ _ => sq_nonneg _)
      (Finset.mem_univ k))
  have hpe : ∀ x, p x ≤ euclid x := fun x => habove x _ (euclid_nonneg x) fun k => hle k x
  have hep : ∀ x, euclid x ≤ m * p x := by
    intro x
    have hp0 : 0 ≤ p x := apply_nonneg p x
    unfold euclid
    rw [← hparseval x, Real.sqrt_le_left (by positivity), mul_pow, Real.sq_sqrt (Nat.cast_nonneg _)]
    have : ∀ k ∈ (Finset.univ : Finset ι), (f k x) ^ 2 ≤ p x ^ 2 := by
      intro k _
      rw [← sq_abs]
      exact pow_le_pow_left₀ (abs_nonneg _) (hbelow k x) 2
    refine (Finset.sum_le_sum this).trans (le_of_eq ?_)
    rw [Finset.sum_const, nsmul_eq_mul, Finset.card_univ]
  have hAp : ∀ k, Approx G.sys (q k) (1 / 3) := fun k =>
    (eigen_damped (E := G) (hμ k) (hfA k) LinearMap.id (fun l u v t t' hl ht => by
      show Matrix.mulVec _ _ = _
      simp only [LinearMap.id_apply]
      show Matrix.mulVec _ (ideal l u t t' - ideal l v t t') = _
      rw [Matrix.mulVec_sub, hideal l u t t' hl ht, hideal l v t t' hl ht]
      abel)).approx (E := G) h.valid (hμ k)
  -- a residual bounds the error in each component
  have hres : ∀ (t t' : ℝ) (y : ι → ℝ), t ≤ t' → ∀ B, 0 ≤ B → euclid (((t' - t) • A + 1).mulVec y) ≤ B → p y ≤ B := by
    intro t t' y ht B hB0 hB
    refine habove y B hB0 fun k => ?_
    rw [hqa]
    have h3 := (hle k _).trans hB
    rw [Matrix.add_mulVec, Matrix.smul_mulVec, Matrix.one_mulVec, map_add, map_smul, hfA, smul_eq_mul,
      show (t' - t) * (μ k * f k y) + f k y = (1 + (t' - t) * μ k) * f k y by ring, abs_mul] at h3
    refine le_trans ?_ h3
    have hd : 0 ≤ (t' - t) * μ k := mul_nonneg (sub_nonneg.2 ht) (hμ k)
    refine le_mul_of_one_le_left (abs_nonneg _) ?_
    rw [abs_of_nonneg (by linarith)]
    linarith
  -- sizes
  have hsz : ∀ x : ι → ℝ, p x ≤ 2 * numRange G (1 / 3) * (Q + D + φ) → euclid x ≤ M := fun x hx =>
    (hep x).trans ((mul_le_mul_of_nonneg_left hx hm0).trans hM)
  have hm1 : ∀ a, 0 ≤ a → (∃ _ : ι, True) → a ≤ m * a := by
    intro a ha ⟨k, _⟩
    refine le_mul_of_one_le_left ha ?_
    rw [hm, Real.one_le_sqrt]
    exact_mod_cast Fintype.card_pos_iff.2 ⟨k⟩
  have hpair : ∀ x y : ι → ℝ, u * (euclid x + euclid y) ≤ m * u * (p x + p y) := by
    intro x y
    have := mul_le_mul_of_nonneg_left (add_le_add (hep x) (hep y)) hu
    linarith
  have key := C115_relative (q := q) (p := p) (u := m * u) (φ := φ) (ω := ω) (val := val) (ideal := ideal)
    (κ := 1 / 3) h hmax hL hadj (by norm_num) (by positivity) hφ hbelow habove hAp D Q
    { R := hR
      I := hI
      add := fun x y hx hy => (hpe _).trans ((hadd x y (hsz _ hx) (hsz _ hy)).trans (hpair _ _))
      sub := fun x y hx hy => (hpe _).trans ((hsub x y (hsz _ hx) (hsz _ hy)).trans (hpair _ _))
      relax := fun x y hx hy => (hpe _).trans ((hrelax x y (hsz _ hx) (hsz _ hy)).trans (hpair _ _))
      step := fun l i x hl hi hx => by
        have ht : tAt (grid E.ts l) i ≤ tAt (grid E.ts l) (i + 1) := tAt_mono (h.valid.sorted l) (by omega) hi
        set t := tAt (grid E.ts l) i
        set t' := tAt (grid E.ts l) (i + 1)
        by_cases hne : ∃ _ : ι, True
        · refine (hres t t' _ ht (u * (euclid (val x) + φ)) ?_ ?_).trans ?_
          · have := euclid_nonneg (val x)
            positivity
          · have h3 : ((t' - t) • A + 1).mulVec (ideal l (val x) t t') = val x + b l t t' := hideal l (val x) t t' hl ht
            rw [Matrix.mulVec_sub, h3]
            exact hstep l i x t t' hl hi rfl rfl (hsz _ hx)
          · have h4 := mul_le_mul_of_nonneg_left (add_le_add (hep (val x)) (hm1 φ hφ hne)) hu
            linarith
        · refine (habove _ 0 le_rfl fun k => absurd ⟨k, trivial⟩ hne).trans ?_
          have := apply_nonneg p (val x)
          positivity }
    (fun l i hl hi => by
      have ht : tAt (grid E.ts l) i ≤ tAt (grid E.ts l) (i + 1) := tAt_mono (h.valid.sorted l) (by omega) hi
      refine hres _ _ _ ht φ hφ ?_
      have h3 : ((tAt (grid E.ts l) (i + 1) - tAt (grid E.ts l) i) • A + 1).mulVec
          (ideal l 0 (tAt (grid E.ts l) i) (tAt (grid E.ts l) (i + 1))) = _ := hideal l 0 _ _ hl ht
      rw [h3, zero_add]
      exact hb l i hl hi) hq
    (by
      intro i hi
      rw [constructor_value hnest]
      split
      · next e0 =>
        subst e0
        show p (val (E.start 0) - val (E.start 0)) ≤ D
        rw [sub_self, map_zero]; exact hD0
      · next e0 => rw [if_pos rfl]; exact (hpe _).trans (hD i hi e0))
    (fun i hi => (hpe _).trans (hQ i hi)) hsmall h1 hc r s hr k i j hi hj
  exact (hep _).trans (mul_le_mul_of_nonneg_left key hm0)

end

/-- C115.  The shipped one-dimensional heat equation with backward Euler on a machine. -/
theorem C115_heat_1d {V K N : Type} [Add V] [Sub V] [SMul K V] [One K] [Sub K] [Zero N] {n : Nat} {E : Cfg V K ℝ N}
    (h : E.Good) (hmax : 0 < E.maxIter) (hL : 1 < E.ts.length)
    (hadj : ∀ l, l + 1 < E.ts.length → E.cf l = 0 ∨ ∀ i, i ∈ allC E.ts l → i + 1 ∉ allC E.ts l)
    {a dx : ℝ} (ha : 0 ≤ a) (rhs : ℝ → Fin n → ℝ) (ideal : Nat → (Fin n → ℝ) → ℝ → ℝ → Fin n → ℝ)
    (hideal : ∀ l u (t t' : ℝ), l < E.ts.length → t ≤ t' → Apps.heat1dStep a dx rhs u t t' (ideal l u t t'))
    {val : V → Fin n → ℝ} {ω u φ D Q M : ℝ} (hu : 0 ≤ u) (hφ : 0 ≤ φ)
    (hb : ∀ l i, l < E.ts.length → i + 1 < npts E.ts l →
      euclid ((tAt (grid E.ts l) (i + 1) - tAt (grid E.ts l) i) • rhs (tAt (grid E.ts l) (i + 1))) ≤ φ)
    (hR : ∀ l, l + 1 < E.ts.length → ∀ x, val (E.R l x) = val x)
    (hI : ∀ l, l + 1 < E.ts.length → ∀ x, val (E.I l x) = val x)
    (hadd : ∀ x y, euclid (val x) ≤ M → euclid (val y) ≤ M →
      euclid (val (x + y) - (val x + val y)) ≤ u * (euclid (val x) + euclid (val y)))
    (hsub : ∀ x y, euclid (val x) ≤ M → euclid (val y) ≤ M →
      euclid (val (x - y) - (val x - val y)) ≤ u * (euclid (val x) + euclid (val y)))
    (hrelax : ∀ x y, euclid (val x) ≤ M → euclid (val y) ≤ M →
      euclid (val (E.w • x + (1 - E.w) • y) - (ω • val x + (1 - ω) • val y)) ≤ u * (euclid (val x) + euclid (val y)))
    (hstep : ∀ l i x (t t' : ℝ), l < E.ts.length → i + 1 < npts E.ts l → t = tAt (grid E.ts l) i →
      t' = tAt (grid E.ts l) (i + 1) → euclid (val x) ≤ M →
      euclid (((t' - t) • Apps.heatMatrix n a dx + 1).mulVec (val (E.step l x t t')) - (val x + (t' - t) • rhs t'))
        ≤ u * (euclid (val x) + φ))
    (hq : convRate (E.ideally val ideal ω) (1 / 3) < 1) (hnest : E.nested = false) (hD0 : 0 ≤ D)
    (hD : ∀ i, i ∈ allC E.ts 0 → i ≠ 0 →
      euclid (val (E.guess i) - timeStepping (E.ideally val ideal ω) i) ≤ D)
    (hQ : ∀ i, i < npts E.ts 0 → euclid (timeStepping (E.ideally val ideal ω) i) ≤ Q)
    (hM : √n * (2 * numRange (E.ideally val ideal ω) (1 / 3) * (Q + D + φ)) ≤ M)
    (hsmall : 24 * (√n * u) * npts E.ts 0 * numRange (E.ideally val ideal ω) (1 / 3)
      * (inexactFactor (E.ideally val ideal ω) (1 / 3)
        / (1 - convRate (E.ideally val ideal ω) (1 / 3)) + 1) ≤ 1)
    {c : Conf E.P (Msg V N) (PState V N)} (h1 : Steps (startConf E) c) (hc : ∀ d, ¬ Step c d)
    (r : Fin E.P) (s : PState V N) (hr : c.prog r = Prog.ret s)
    (k i j : Nat) (hi : (E.info r 0).pts[k]? = some i) (hj : (E.info r 0).idx[k]? = some j) :
    euclid (val (s.u 0 j) - timeStepping (E.ideally val ideal ω) i)
      ≤ √n * (convRate (E.ideally val ideal ω) (1 / 3) ^ s.solveIter * D
        + 24 * (√n * u) * npts E.ts 0 * numRange (E.ideally val ideal ω) (1 / 3)
          * inexactFactor (E.ideally val ideal ω) (1 / 3)
          / (1 - convRate (E.ideally val ideal ω) (1 / 3)) * (Q + D + φ)) := by
  have e : (Fintype.card (Fin n) : ℝ) = n := by rw [Fintype.card_fin]
  have := C115_symmetric (D := D) (Q := Q) (M := M) (u := u) (ω := ω) h hmax hL hadj (Apps.heatMatrix_symm n a dx)
    (fun v μ hv he => heat_eigen_nonneg ha v μ hv he) (fun _ (t t' : ℝ) => (t' - t) • rhs t') ideal hideal hu hφ
    hb hR hI hadd hsub hrelax hstep hq hnest hD0 hD hQ (by rw [e]; exact hM)
    (by rw [e]; exact hsmall) h1 hc r s hr k i j hi hj
  rwa [e] at this

/-! ## Vectors of floating-point numbers -/

section
variable {ι : Type} [Fintype ι]

theorem euclid_eq (x : ι → ℝ) : euclid x = ‖(WithLp.toLp 2 x : EuclideanSpace ℝ ι)‖ := by
  rw [EuclideanSpace.norm_eq]
  simp [euclid]

theorem euclid_add (x y : ι → ℝ) : euclid (x + y) ≤ euclid x + euclid y := by
  rw [euclid_eq, euclid_eq, euclid_eq, WithLp.toLp_add]
  exact norm_add_le _ _

theorem euclid_mono {x y : ι → ℝ} (h : ∀ i, |x i| ≤ y i) : euclid x ≤ euclid y := by
  unfold euclid
  refine Real.sqrt_le_sqrt (Finset.sum_le_sum fun i _ => ?_)
  rw [← sq_abs]
  exact pow_le_pow_left₀ (abs_nonneg _) (h i) 2

theorem euclid_abs (x : ι → ℝ) : euclid (fun i => |x i|) = euclid x := by
  unfold euclid
  simp only [sq_abs]

theorem euclid_smul {a : ℝ} (ha : 0 ≤ a) (x : ι → ℝ) : euclid (a • x) = a * euclid x := by
  rw [euclid_eq, euclid_eq, WithLp.toLp_smul, norm_smul, Real.norm_eq_abs, abs_of_nonneg ha]

/-- Componentwise relative errors. -/
theorem euclid_error {x y z : ι → ℝ} {a : ℝ} (ha : 0 ≤ a) (h : ∀ i, |z i| ≤ a * (|x i| + |y i|)) :
    euclid z ≤ a * (euclid x + euclid y) := by
  have h1 : euclid z ≤ euclid (a • ((fun i => |x i|) + fun i => |y i|)) := euclid_mono h
  rw [euclid_smul ha] at h1
  refine h1.trans (mul_le_mul_of_nonneg_left ?_ ha)
  have := euclid_add (fun i => |x i|) (fun i => |y i|)
  rwa [euclid_abs, euclid_abs] at this

end

/-- C115.  The shipped one-dimensional heat equation on a machine whose operations have a relative error of at most `e`:
the operations on the vectors are those of arrays (heat_1d.py:29-60), component by component, each rounded.  Only the
linear solver is a parameter: its residuals have relative size at most `u`. -/
theorem C115_float_heat_1d {N : Type} [Zero N] {rnd : ℝ → ℝ} {n : Nat} {E : Cfg (Fin n → Fl rnd) (Fl rnd) ℝ N}
    (h : E.Good) (hmax : 0 < E.maxIter) (hL : 1 < E.ts.length)
    (hadj : ∀ l, l + 1 < E.ts.length → E.cf l = 0 ∨ ∀ i, i ∈ allC E.ts l → i + 1 ∉ allC E.ts l)
    (hR : ∀ l, l + 1 < E.ts.length → ∀ x, E.R l x = x) (hI : ∀ l, l + 1 < E.ts.length → ∀ x, E.I l x = x)
    (hw0 : 0 ≤ E.w.val) (hw1 : E.w.val ≤ 1)
    {e u : ℝ} (he : 0 ≤ e) (he1 : e ≤ 1 / 100) (hrnd : ∀ x, |rnd x - x| ≤ e * |x|) (hue : 6 * e ≤ u)
    {a dx : ℝ} (ha : 0 ≤ a) (rhs : ℝ → Fin n → ℝ) (ideal : Nat → (Fin n → ℝ) → ℝ → ℝ → Fin n → ℝ)
    (hideal : ∀ l u (t t' : ℝ), l < E.ts.length → t ≤ t' → Apps.heat1dStep a dx rhs u t t' (ideal l u t t'))
    {φ D Q : ℝ} (hφ : 0 ≤ φ)
    (hb : ∀ l i, l < E.ts.length → i + 1 < npts E.ts l →
      euclid ((tAt (grid E.ts l) (i + 1) - tAt (grid E.ts l) i) • rhs (tAt (grid E.ts l) (i + 1))) ≤ φ)
    (hstep : ∀ l i x (t t' : ℝ), l < E.ts.length → i + 1 < npts E.ts l → t = tAt (grid E.ts l) i →
      t' = tAt (grid E.ts l) (i + 1) →
      euclid (((t' - t) • Apps.heatMatrix n a dx + 1).mulVec (fun y => (E.step l x t t' y).val)
        - ((fun y => (x y).val) + (t' - t) • rhs t')) ≤ u * (euclid (fun y => (x y).val) + φ))
    (hq : convRate (E.ideally (fun x y => (x y).val) ideal E.w.val) (1 / 3) < 1) (hnest : E.nested = false)
    (hD0 : 0 ≤ D)
    (hD : ∀ i, i ∈ allC E.ts 0 → i ≠ 0 → euclid ((fun y => (E.guess i y).val)
      - timeStepping (E.ideally (fun x y => (x y).val) ideal E.w.val) i) ≤ D)
    (hQ : ∀ i, i < npts E.ts 0 → euclid (timeStepping (E.ideally (fun x y => (x y).val) ideal E.w.val) i) ≤ Q)
    (hsmall : 24 * (√n * u) * npts E.ts 0 * numRange (E.ideally (fun x y => (x y).val) ideal E.w.val) (1 / 3)
      * (inexactFactor (E.ideally (fun x y => (x y).val) ideal E.w.val) (1 / 3)
        / (1 - convRate (E.ideally (fun x y => (x y).val) ideal E.w.val) (1 / 3)) + 1) ≤ 1)
    {c : Conf E.P (Msg (Fin n → Fl rnd) N) (PState (Fin n → Fl rnd) N)} (h1 : Steps (startConf E) c)
    (hc : ∀ d, ¬ Step c d)
    (r : Fin E.P) (s : PState (Fin n → Fl rnd) N) (hr : c.prog r = Prog.ret s)
    (k i j : Nat) (hi : (E.info r 0).pts[k]? = some i) (hj : (E.info r 0).idx[k]? = some j) :
    euclid ((fun y => (s.u 0 j y).val) - timeStepping (E.ideally (fun x y => (x y).val) ideal E.w.val) i)
      ≤ √n * (convRate (E.ideally (fun x y => (x y).val) ideal E.w.val) (1 / 3) ^ s.solveIter * D
        + 24 * (√n * u) * npts E.ts 0 * numRange (E.ideally (fun x y => (x y).val) ideal E.w.val) (1 / 3)
          * inexactFactor (E.ideally (fun x y => (x y).val) ideal E.w.val) (1 / 3)
          / (1 - convRate (E.ideally (fun x y => (x y).val) ideal E.w.val) (1 / 3)) * (Q + D + φ)) := by
  have hu : 0 ≤ u := by linarith
  have heu : e ≤ u := by linarith
  refine C115_heat_1d (val := fun x y => (x y).val) (ω := E.w.val) (u := u) h hmax hL hadj ha rhs ideal hideal hu hφ hb
    (fun l hl x => by rw [hR l hl]) (fun l hl x => by rw [hI l hl]) ?_ ?_ ?_
    (fun l i x t t' hl hi h3 h4 _ => hstep l i x t t' hl hi h3 h4) hq hnest hD0 hD hQ le_rfl hsmall
    h1 hc r s hr k i j hi hj
  · intro x y _ _
    refine euclid_error hu fun i => ?_
    refine (hrnd ((x i).val + (y i).val)).trans ?_
    have h3 := abs_add_le (x i).val (y i).val
    exact mul_le_mul heu h3 (abs_nonneg _) hu
  · intro x y _ _
    refine euclid_error hu fun i => ?_
    refine (hrnd ((x i).val - (y i).val)).trans ?_
    have h3 := abs_sub (x i).val (y i).val
    exact mul_le_mul heu h3 (abs_nonneg _) hu
  · intro x y _ _
    refine euclid_error hu fun i => ?_
    refine (Fl.relax_error he he1 hrnd hw0 hw1 (x i) (y i)).trans ?_
    exact mul_le_mul_of_nonneg_right hue (by positivity)

/-! ## Rounding to a number of binary digits -/

/-- Round to nearest with `b` binary digits and unbounded exponents. -/
noncomputable def roundBits (b : Nat) (x : ℝ) : ℝ :=
  round (x / 2 ^ (Int.log 2 |x| - b + 1)) * 2 ^ (Int.log 2 |x| - b + 1)

/-- C115.  Rounding to nearest meets the hypothesis of `C115_float_dahlquist` and `C115_float_heat_1d` with `e = 2 ^ (-b)`;
`b = 53` for double precision. -/
theorem C115_round_to_nearest (b : Nat) (x : ℝ) : |roundBits b x - x| ≤ 1 / 2 ^ b * |x| := by
  by_cases hx : x = 0
  · subst hx; simp [roundBits]
  have hx0 : 0 < |x| := abs_pos.2 hx
  unfold roundBits
  set q : ℝ := (2 : ℝ) ^ (Int.log 2 |x| - b + 1) with hq
  have hq0 : 0 < q := by positivity
  have h1 : |round (x / q) * q - x| = |x / q - round (x / q)| * q := by
    rw [← abs_of_pos hq0, ← abs_mul, abs_of_pos hq0, sub_mul, div_mul_cancel₀ _ hq0.ne', abs_sub_comm]
  rw [h1]
  have h2 := mul_le_mul_of_nonneg_right (abs_sub_round (x / q)) hq0.le
  refine h2.trans ?_
  have h3 : ((2 : Nat) : ℝ) ^ Int.log 2 |x| ≤ |x| := Int.zpow_log_le_self (by norm_num) hx0
  have h4 : q = 2 * (1 / 2 ^ b * ((2 : Nat) : ℝ) ^ Int.log 2 |x|) := by
    rw [hq, zpow_add₀ (two_ne_zero' ℝ), zpow_sub₀ (two_ne_zero' ℝ), zpow_natCast, zpow_one]
    push_cast
    ring
  rw [h4]
  have := mul_le_mul_of_nonneg_left h3 (show (0 : ℝ) ≤ 1 / 2 ^ b by positivity)
  linarith

/-! ## Examples -/

/-- A solver of the Dahlquist problem in double precision: `exRealGrid`, three processes. -/
noncomputable def exFloat64 : Cfg (Fl (roundBits 53)) (Fl (roundBits 53)) ℝ Nat where
  ts := exRealGrid
  step := fun _ u t t' => Fl.stepBE (-2) u t t'
  R := fun _ x => x
  I := fun _ x => x
  cf := fun _ => 1
  w := ⟨1 / 2⟩
  start := fun _ => ⟨1⟩
  zero := fun _ => ⟨0⟩
  guess := fun _ => ⟨0⟩
  cyc := Sys.Cycle.V
  nested := false
  maxIter := 5
  convCrit := 0
  norm := fun _ => 0
  tnorm := fun xs => xs.sum
  ltTol := fun x => decide (x < 1)
  outLvl := 2
  ord := fun _ _ xs => xs
  P := 3
  instr := false

theorem exReal_gap' : ∀ i, i ∈ allC exRealGrid 0 → i + 1 ∉ allC exRealGrid 0 := by
  intro i h1 h2
  have := exRealGrid_allC h1
  have := exRealGrid_allC h2
  omega

theorem exFloat64_good : exFloat64.Good :=
  good_of_gap exRealGrid_valid (show 0 < 3 by decide) (show 3 ≤ 5 by decide)
    (fun r l hr hl => ordOK_id exRealGrid_valid (show 3 ≤ 5 by decide) hl hr) (Or.inl rfl) (by
      intro l i hl
      have hl' : l = 0 := by
        have : l + 1 < 2 := hl
        omega
      subst hl'
      exact fun e => exReal_gap' i e.1 e.2)

/-- `C115_float_dahlquist` in double precision: after `m` iterations the error is at most `3 ^ (-m) D` plus
`2 · 10 ^ (-10) (1 + D)`. -/
example {c : Conf 3 (Msg (Fl (roundBits 53)) Nat) (PState (Fl (roundBits 53)) Nat)}
    (h1 : Steps (startConf exFloat64) c) (hc : ∀ d, ¬ Step c d) (r : Fin 3) (s : PState (Fl (roundBits 53)) Nat)
    (hr : c.prog r = Prog.ret s) (D : ℝ) (hD0 : 0 ≤ D)
    (hD : ∀ i, i ∈ allC exRealGrid 0 → i ≠ 0 → |0 - timeStepping
      (exFloat64.ideally Fl.val (fun _ => Apps.dahlquist .BE (-2)) (1 / 2)) i| ≤ D)
    (k i j : Nat) (hi : (exFloat64.info r 0).pts[k]? = some i) (hj : (exFloat64.info r 0).idx[k]? = some j) :
    |(s.u 0 j).val - timeStepping (exFloat64.ideally Fl.val (fun _ => Apps.dahlquist .BE (-2)) (1 / 2)) i|
      ≤ (1 / 3) ^ s.solveIter * D + 2 / 10 ^ 10 * (1 + D) := by
  have hw0 : (0 : ℝ) ≤ (exFloat64.ideally Fl.val (fun _ => Apps.dahlquist .BE (-2 : ℝ)) (1 / 2)).w := by
    show (0 : ℝ) ≤ 1 / 2; norm_num
  have hw1 : (exFloat64.ideally Fl.val (fun _ => Apps.dahlquist .BE (-2 : ℝ)) (1 / 2)).w ≤ 1 := by
    show (1 / 2 : ℝ) ≤ 1; norm_num
  have hf := C104_factor_two hw0 hw1 rfl (1 / 3)
  have hn := C115_room_two hw0 hw1 rfl rfl
  have e2 : (exFloat64.ideally Fl.val (fun _ => Apps.dahlquist .BE (-2 : ℝ)) (1 / 2)).cf 0 = 1 := rfl
  have e : npts exFloat64.ts 0 = 5 := rfl
  have ew : exFloat64.w.val = 1 / 2 := rfl
  have es : (exFloat64.start 0).val = 1 := rfl
  rw [e2] at hf hn
  have key := C115_float_dahlquist exFloat64_good (by show 0 < 5; decide) (by show 1 < 2; decide)
    (fun l hl => Or.inr fun i h2 => by
      have hl' : l = 0 := by
        have : l + 1 < 2 := hl
        omega
      subst hl'
      exact exReal_gap' i h2) (fun _ _ _ => rfl) (fun _ _ _ => rfl)
    (by rw [ew]; norm_num) (by rw [ew]; norm_num) (e := 1 / 2 ^ 53) (by positivity) (by norm_num)
    (C115_round_to_nearest 53) (lam := -2) (by norm_num) (fun _ _ _ _ _ _ => rfl)
    (by rw [ew, hf.1]; norm_num) rfl D hD0 hD
    (by rw [ew, hf.1, hf.2, hn, e]; norm_num) h1 hc r s hr k i j hi hj
  rw [ew, hf.1, hf.2, hn, e, es] at key
  refine key.trans (add_le_add le_rfl (mul_le_mul ?_ ?_ ?_ ?_))
  · norm_num
  · rw [abs_one]
  · positivity
  · norm_num

/-- A solver of the heat equation in double precision whose linear solver always returns vectors that are too long by
the factor `1 + 2 ^ (-50)`. -/
noncomputable def exHeatDouble : Cfg (Fin 7 → Fl (roundBits 53)) (Fl (roundBits 53)) ℝ Nat where
  ts := exRealGrid
  step := fun l x t t' y =>
    ⟨(1 + 1 / 2 ^ 50) * exHeat 7 2 (1 / 8) (fun _ => Pi.single 0 1) l (fun y => (x y).val) t t' y⟩
  R := fun _ x => x
  I := fun _ x => x
  cf := fun _ => 1
  w := ⟨1 / 2⟩
  start := fun _ _ => ⟨1⟩
  zero := fun _ _ => ⟨0⟩
  guess := fun _ _ => ⟨0⟩
  cyc := Sys.Cycle.V
  nested := false
  maxIter := 5
  convCrit := 0
  norm := fun _ => 0
  tnorm := fun xs => xs.sum
  ltTol := fun x => decide (x < 1)
  outLvl := 2
  ord := fun _ _ xs => xs
  P := 3
  instr := false

theorem exHeatDouble_good : exHeatDouble.Good :=
  good_of_gap exRealGrid_valid (show 0 < 3 by decide) (show 3 ≤ 5 by decide)
    (fun r l hr hl => ordOK_id exRealGrid_valid (show 3 ≤ 5 by decide) hl hr) (Or.inl rfl) (by
      intro l i hl
      have hl' : l = 0 := by
        have : l + 1 < 2 := hl
        omega
      subst hl'
      exact fun e => exReal_gap' i e.1 e.2)

theorem exHeatDouble_source (l i : Nat) (hl : l < 2) (hi : i + 1 < npts exRealGrid l) :
    euclid ((tAt (grid exRealGrid l) (i + 1) - tAt (grid exRealGrid l) i) • (Pi.single 0 1 : Fin 7 → ℝ)) ≤ 10 := by
  have h0 : 0 ≤ tAt (grid exRealGrid l) (i + 1) - tAt (grid exRealGrid l) i :=
    sub_nonneg.2 (tAt_mono (exRealGrid_valid.sorted l) (by omega) hi)
  have h1 : tAt (grid exRealGrid l) (i + 1) - tAt (grid exRealGrid l) i ≤ 10 := by
    interval_cases l
    · have hi : i + 1 < 5 := hi
      have hi : i < 4 := by omega
      interval_cases i <;> simp [exRealGrid, grid, tAt] <;> norm_num
    · have hi : i + 1 < 3 := hi
      have hi : i < 2 := by omega
      interval_cases i <;> simp [exRealGrid, grid, tAt] <;> norm_num
  rw [euclid_smul h0]
  have h2 : euclid (Pi.single 0 1 : Fin 7 → ℝ) = 1 := by
    unfold euclid
    rw [Finset.sum_eq_single 0]
    · simp
    · intro b _ hb; simp [hb]
    · simp
  rw [h2, mul_one]
  exact h1

/-- `C115_float_heat_1d` for it. -/
example {c : Conf 3 (Msg (Fin 7 → Fl (roundBits 53)) Nat) (PState (Fin 7 → Fl (roundBits 53)) Nat)}
    (h1 : Steps (startConf exHeatDouble) c) (hc : ∀ d, ¬ Step c d) (r : Fin 3)
    (s : PState (Fin 7 → Fl (roundBits 53)) Nat) (hr : c.prog r = Prog.ret s) (D Q : ℝ) (hD0 : 0 ≤ D)
    (hD : ∀ i, i ∈ allC exRealGrid 0 → i ≠ 0 → euclid ((fun _ => 0) - timeStepping (exHeatDouble.ideally
      (fun x y => (x y).val) (exHeat 7 2 (1 / 8) (fun _ => Pi.single 0 1)) (1 / 2)) i) ≤ D)
    (hQ : ∀ i, i < npts exRealGrid 0 → euclid (timeStepping (exHeatDouble.ideally
      (fun x y => (x y).val) (exHeat 7 2 (1 / 8) (fun _ => Pi.single 0 1)) (1 / 2)) i) ≤ Q) := by
  let G := exHeatDouble.ideally (fun x y => (x y).val) (exHeat 7 2 (1 / 8) (fun _ => Pi.single 0 1)) (1 / 2)
  have hw0 : (0 : ℝ) ≤ G.w := by show (0 : ℝ) ≤ 1 / 2; norm_num
  have hw1 : G.w ≤ 1 := by show (1 / 2 : ℝ) ≤ 1; norm_num
  have hf := C104_factor_two hw0 hw1 rfl (1 / 3)
  have hn := C115_room_two hw0 hw1 rfl rfl
  have e2 : G.cf 0 = 1 := rfl
  have e : npts exHeatDouble.ts 0 = 5 := rfl
  have ew : exHeatDouble.w.val = 1 / 2 := rfl
  rw [e2] at hf hn
  have h7 : √((7 : Nat) : ℝ) ≤ 3 := by
    rw [Real.sqrt_le_left (by norm_num)]; norm_num
  exact C115_float_heat_1d (D := D) (Q := Q) exHeatDouble_good (by show 0 < 5; decide) (by show 1 < 2; decide)
    (fun l hl => Or.inr fun i h2 => by
      have hl' : l = 0 := by
        have : l + 1 < 2 := hl
        omega
      subst hl'
      exact exReal_gap' i h2) (fun _ _ _ => rfl) (fun _ _ _ => rfl)
    (by rw [ew]; norm_num) (by rw [ew]; norm_num) (e := 1 / 2 ^ 53) (u := 1 / 2 ^ 50) (by positivity) (by norm_num)
    (C115_round_to_nearest 53) (by norm_num) (a := 2) (dx := 1 / 8) (by norm_num) (fun _ => Pi.single 0 1)
    (exHeat 7 2 (1 / 8) (fun _ => Pi.single 0 1)) (fun l u _ _ _ ht => exHeat_step (by norm_num) _ l u ht)
    (φ := 10) (by norm_num) exHeatDouble_source
    (fun l i x t t' hl hi et et' => by
      have ht : t ≤ t' := by
        rw [et, et']
        exact tAt_mono (exRealGrid_valid.sorted l) (by omega) hi
      have h3 := exHeat_step (n := 7) (a := 2) (dx := 1 / 8) (by norm_num) (fun _ => Pi.single 0 1) l
        (fun y => (x y).val) ht
      have h4 := exHeatDouble_source l i hl hi
      rw [show tAt (grid exRealGrid l) (i + 1) = t' from et'.symm,
        show tAt (grid exRealGrid l) i = t from et.symm] at h4
      unfold Apps.heat1dStep Solves at h3
      have e5 : (fun y => (exHeatDouble.step l x t t' y).val)
          = (1 + 1 / 2 ^ 50 : ℝ) • exHeat 7 2 (1 / 8) (fun _ => Pi.single 0 1) l (fun y => (x y).val) t t' := rfl
      rw [e5, Matrix.mulVec_smul, h3, add_smul, one_smul, add_sub_cancel_left, euclid_smul (by positivity)]
      refine mul_le_mul_of_nonneg_left ?_ (by positivity)
      exact (euclid_add _ _).trans (add_le_add le_rfl h4))
    (by rw [ew, hf.1]; norm_num) rfl hD0 hD hQ
    (by
      rw [ew, hf.1, hf.2, hn, e]
      have : (24 : ℝ) * (√((7 : Nat) : ℝ) * (1 / 2 ^ 50)) * ((5 : Nat) : ℝ) * (10 * (23 / 3 * ((1 : Nat) : ℝ) + 77 / 3))
          * ((1 / 3 * (((1 : Nat) : ℝ) + 1) + 4) / (1 - 1 / 3) + 1)
          = √((7 : Nat) : ℝ) * (320000 / 2 ^ 50) := by push_cast; ring
      rw [this]
      have := mul_le_mul_of_nonneg_right h7 (show (0 : ℝ) ≤ 320000 / 2 ^ 50 by positivity)
      refine this.trans ?_
      norm_num) h1 hc r s hr

/-- Fixed-point arithmetic: integers in units of `10 ^ (-6)`, the quotient of the time stepper rounded down. -/
noncomputable def exFixed : Cfg Int Int ℝ Nat where
  ts := exRealGrid
  step := fun _ x t t' => ⌊(x : ℝ) / (1 + 2 * (t' - t))⌋
  R := fun _ x => x
  I := fun _ x => x
  cf := fun _ => 1
  w := 1
  start := fun _ => 1000000
  zero := fun _ => 0
  guess := fun _ => 0
  cyc := Sys.Cycle.V
  nested := false
  maxIter := 5
  convCrit := 0
  norm := fun _ => 0
  tnorm := fun xs => xs.sum
  ltTol := fun x => decide (x < 1)
  outLvl := 2
  ord := fun _ _ xs => xs
  P := 3
  instr := false

theorem exFixed_good : exFixed.Good :=
  good_of_gap exRealGrid_valid (show 0 < 3 by decide) (show 3 ≤ 5 by decide)
    (fun r l hr hl => ordOK_id exRealGrid_valid (show 3 ≤ 5 by decide) hl hr) (Or.inl rfl) (by
      intro l i hl
      have hl' : l = 0 := by
        have : l + 1 < 2 := hl
        omega
      subst hl'
      exact fun e => exReal_gap' i e.1 e.2)

/-- `C115_absolute` for it: the error is at most `3 ^ (-m) D + 2.1 · 10 ^ (-4)`. -/
example {c : Conf 3 (Msg Int Nat) (PState Int Nat)}
    (h1 : Steps (startConf exFixed) c) (hc : ∀ d, ¬ Step c d) (r : Fin 3) (s : PState Int Nat)
    (hr : c.prog r = Prog.ret s) (D Q : ℝ)
    (hD : ∀ i, i ∈ allC exRealGrid 0 → |((afterConstructor exFixed).st.u 0 i : ℝ) / 10 ^ 6 - timeStepping
      (exFixed.ideally (fun x : Int => (x : ℝ) / 10 ^ 6) (fun _ => Apps.dahlquist .BE (-2)) 1) i| ≤ D)
    (hQ : ∀ i, i < npts exRealGrid 0 → |timeStepping
      (exFixed.ideally (fun x : Int => (x : ℝ) / 10 ^ 6) (fun _ => Apps.dahlquist .BE (-2)) 1) i| ≤ Q)
    (k i j : Nat) (hi : (exFixed.info r 0).pts[k]? = some i) (hj : (exFixed.info r 0).idx[k]? = some j) :
    |(s.u 0 j : ℝ) / 10 ^ 6
      - timeStepping (exFixed.ideally (fun x : Int => (x : ℝ) / 10 ^ 6) (fun _ => Apps.dahlquist .BE (-2)) 1) i|
      ≤ (1 / 3) ^ s.solveIter * D + 21 / 10 ^ 5 := by
  let val : Int → ℝ := fun x => (x : ℝ) / 10 ^ 6
  let G := exFixed.ideally val (fun _ => Apps.dahlquist .BE (-2)) 1
  have hw0 : (0 : ℝ) ≤ G.w := by show (0 : ℝ) ≤ 1; norm_num
  have hw1 : G.w ≤ 1 := by show (1 : ℝ) ≤ 1; norm_num
  have hf := C104_factor_two hw0 hw1 rfl (1 / 3)
  have e2 : G.cf 0 = 1 := rfl
  have e : npts exFixed.ts 0 = 5 := rfl
  rw [e2] at hf
  let p : Seminorm ℝ ℝ := (normSeminorm ℝ ℝ).comp LinearMap.id
  have hp : ∀ x, p x = |x| := fun x => rfl
  have hA : Approx G.sys p (1 / 3) :=
    (dahlquist_damped (E := G) fun _ _ _ _ _ => rfl).approx (E := G) exFixed_good.valid (by norm_num)
  have key := C115_absolute (ι := Unit) (q := fun _ => p) (p := p) (ε := 1 / 10 ^ 6) (φ := 0) (ω := 1)
    (val := val) (ideal := fun _ => Apps.dahlquist .BE (-2)) (κ := 1 / 3) exFixed_good (by show 0 < 5; decide)
    (by show 1 < 2; decide)
    (fun l hl => Or.inr fun i h2 => by
      have hl' : l = 0 := by
        have : l + 1 < 2 := hl
        omega
      subst hl'
      exact exReal_gap' i h2) (by norm_num) (by norm_num) le_rfl (fun _ _ => le_rfl) (fun _ _ _ hx => hx ())
    (fun _ => hA)
    { R := fun _ _ _ => rfl
      I := fun _ _ _ => rfl
      add := fun x y _ _ => by
        rw [hp, show val (x + y) - (val x + val y) = 0 by simp only [val]; push_cast; ring, abs_zero]; norm_num
      sub := fun x y _ _ => by
        rw [hp, show val (x - y) - (val x - val y) = 0 by simp only [val]; push_cast; ring, abs_zero]; norm_num
      relax := fun x y _ _ => by
        rw [hp, show val (exFixed.w • x + (1 - exFixed.w) • y) - ((1 : ℝ) • val x + (1 - 1 : ℝ) • val y) = 0 by
          simp [val, exFixed], abs_zero]; norm_num
      step := fun l i x hl hi _ => by
        have ht : tAt (grid exFixed.ts l) i ≤ tAt (grid exFixed.ts l) (i + 1) :=
          tAt_mono (exRealGrid_valid.sorted l) (by omega) hi
        generalize tAt (grid exFixed.ts l) i = t at ht ⊢
        generalize tAt (grid exFixed.ts l) (i + 1) = t' at ht ⊢
        rw [hp]
        show |(⌊(x : ℝ) / (1 + 2 * (t' - t))⌋ : ℝ) / 10 ^ 6 - 1 / (1 - (t' - t) * -2) * ((x : ℝ) / 10 ^ 6)| ≤ 1 / 10 ^ 6
        rw [show 1 - (t' - t) * -2 = 1 + 2 * (t' - t) by ring,
          show 1 / (1 + 2 * (t' - t)) * ((x : ℝ) / 10 ^ 6) = (x : ℝ) / (1 + 2 * (t' - t)) / 10 ^ 6 by ring]
        generalize (x : ℝ) / (1 + 2 * (t' - t)) = y
        rw [← sub_div, abs_div, abs_of_pos (show (0 : ℝ) < 10 ^ 6 by norm_num)]
        refine div_le_div_of_nonneg_right ?_ (by norm_num)
        have h3 := Int.floor_le y
        have h4 := Int.lt_floor_add_one y
        rw [abs_le]
        constructor <;> linarith }
    (fun l i _ _ => by
      rw [hp]
      simp [Apps.dahlquist])
    (by show convRate G (1 / 3) < 1; rw [hf.1]; norm_num) D Q hD hQ le_rfl h1 hc r s hr k i j hi hj
  have h2 : |(s.u 0 j : ℝ) / 10 ^ 6 - timeStepping G i| ≤ convRate G (1 / 3) ^ s.solveIter * D
        + inexactFactor G (1 / 3) * (npts exFixed.ts 0 * (6 * (1 / 10 ^ 6))) / (1 - convRate G (1 / 3)) := key
  rw [hf.1, hf.2, e] at h2
  refine h2.trans (add_le_add le_rfl ?_)
  norm_num

end Pymgrit
