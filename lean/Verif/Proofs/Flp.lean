import Verif.Proofs.Lagrange
import Verif.Proofs.Prog

/-!
# The generic FLP: exact characterisation of `query`, `prove` and `decide`
-/

set_option linter.unusedSectionVars false

namespace Vdaf
open Finset Polynomial

section wires
variable {F : Type} [NttField F]

/-- Value number `i` of wire `j`: the seed, then the recorded inputs, then zeros. -/
def wval (sd : ℕ → F) (inps : List (List F)) (j i : ℕ) : F :=
  if i = 0 then sd j else Prog.wv inps (i - 1) j

/-- The wires of a wrapped gadget. -/
def wiresOf (sd : ℕ → F) (ar p : ℕ) (inps : List (List F)) : List (List F) :=
  tab ar fun j => tab p (wval sd inps j)

theorem fieldZeros_eq_tab (p : ℕ) : fieldZeros F p = tab p fun _ => (0 : F) := by
  simp [fieldZeros, tab]

theorem initWires_eq {p : ℕ} (hp : 0 < p) (seeds : List F) (sd : ℕ → F)
    (h : ∀ j < seeds.length, coef seeds j = sd j) :
    initWires p seeds = .ok (wiresOf sd seeds.length p []) := by
  unfold initWires
  rw [mapRes_pure _ (fun s => tab p fun i => if i = 0 then s else 0)]
  · congr 1
    apply List.ext_getElem
    · simp [wiresOf]
    · intro j h1 h2
      have hj : j < seeds.length := by simpa using h1
      simp only [List.getElem_map, wiresOf, tab_getElem]
      apply tab_congr
      intro i _
      unfold wval
      split
      · rw [← h j hj, coef_of_lt hj]
      · rw [Prog.wv_of_le (by simp)]
  · intro s _
    rw [fieldZeros_eq_tab, setI_tab hp]
    congr 1
    apply tab_congr
    intro i _
    simp only [Function.update_apply]

theorem recordWires_eq {sd : ℕ → F} {ar p : ℕ} {inps : List (List F)} {inp : List F}
    (hinp : inp.length = ar) (hp : inps.length + 1 < p) :
    recordWires (wiresOf sd ar p inps) (inps.length + 1) inp =
      .ok (wiresOf sd ar p (inps ++ [inp])) := by
  unfold recordWires
  obtain ⟨b, hb, hP⟩ := forFold_range inp.length (wiresOf sd ar p inps)
    (fun wires j => do
      let wire ← getI wires j
      let x ← getI inp j
      let wire ← setI wire (inps.length + 1) x
      setI wires j wire)
    (fun k ws => ws = tab ar fun j => tab p (wval sd (if j < k then inps ++ [inp] else inps) j))
    (by simp [wiresOf])
    (by
      rintro j hj _ rfl
      rw [getI_tab (by omega), getI_of_lt hj]
      simp only [Except.ok_bind']
      rw [setI_tab hp]
      simp only [Except.ok_bind']
      rw [setI_tab (by omega)]
      refine ⟨_, rfl, ?_⟩
      apply tab_congr
      intro j' hj'
      by_cases h : j' = j
      · subst h
        simp only [Function.update_self, lt_irrefl, if_false, Nat.lt_succ_self, if_true]
        apply tab_congr
        intro i _
        rw [Function.update_apply]
        unfold wval
        rw [Prog.wv_append]
        by_cases hi : i = inps.length + 1
        · subst hi; simp [coef_of_lt hj]
        · by_cases hi0 : i = 0
          · simp [hi0]
          · rw [if_neg hi, if_neg hi0, if_neg hi0, if_neg (by omega)]
      · rw [Function.update_of_ne h]
        have : (j' < j + 1) = (j' < j) := by simp; omega
        simp only [this])
  rw [hb, hP]
  congr 1
  unfold wiresOf
  apply tab_congr
  intro j hj
  rw [if_pos (by omega)]

/-- The polynomial of degree `< 2^L` with the given values at the powers of the root. -/
noncomputable def wireP (L : ℕ) (v : ℕ → F) : F[X] :=
  Lagrange.interpolate (range (2 ^ L)) (fun i => nthRoot F L ^ i) v

theorem root_injOn {L m : ℕ} (hL : L ≤ NttField.logOrder F) (hm : m ≤ 2 ^ L) :
    Set.InjOn (fun i : ℕ => nthRoot F L ^ i) (range m : Finset ℕ) := by
  intro i hi j hj hij
  simp only [coe_range, Set.mem_Iio] at hi hj
  exact root_inj hL i (by omega) j (by omega) hij

theorem wireP_degree {L : ℕ} (hL : L ≤ NttField.logOrder F) (v : ℕ → F) :
    (wireP L v).degree < ((2 ^ L : ℕ) : WithBot ℕ) := by
  have := Lagrange.degree_interpolate_lt (r := v) (root_injOn (F := F) hL le_rfl)
  rwa [card_range] at this

theorem wireP_eval {L i : ℕ} (hL : L ≤ NttField.logOrder F) (hi : i < 2 ^ L) (v : ℕ → F) :
    (wireP L v).eval (nthRoot F L ^ i) = v i :=
  Lagrange.eval_interpolate_at_node v (root_injOn hL le_rfl) (by simpa using hi)

theorem wireP_evals {L : ℕ} (hL : L ≤ NttField.logOrder F) (v : ℕ → F) :
    tab (2 ^ L) v = Spec.evals (wireP L v) (nthRoot F L) (2 ^ L) := by
  unfold Spec.evals
  apply tab_congr
  intro i hi
  exact (wireP_eval hL hi v).symm

/-- The polynomial of degree `< m` with the given values at the first `m` powers of the
`2^M`-th root. -/
noncomputable def gadP (M m : ℕ) (v : ℕ → F) : F[X] :=
  Lagrange.interpolate (range m) (fun i => nthRoot F M ^ i) v

theorem gadP_degree {M m : ℕ} (hM : M ≤ NttField.logOrder F) (hm : m ≤ 2 ^ M) (v : ℕ → F) :
    (gadP M m v).degree < (m : WithBot ℕ) := by
  have := Lagrange.degree_interpolate_lt (r := v) (root_injOn (F := F) hM hm)
  rwa [card_range] at this

theorem gadP_evals {M m : ℕ} (hM : M ≤ NttField.logOrder F) (hm : m ≤ 2 ^ M) (v : ℕ → F) :
    tab m v = Spec.evals (gadP M m v) (nthRoot F M) m := by
  unfold Spec.evals
  apply tab_congr
  intro i hi
  exact (Lagrange.eval_interpolate_at_node v (root_injOn hM hm) (by simpa using hi)).symm

theorem gadP_unique {M m : ℕ} (hM : M ≤ NttField.logOrder F) (hm : m ≤ 2 ^ M) (v : ℕ → F)
    (Q : F[X]) (hQ : Q.degree < (m : WithBot ℕ)) (h : ∀ i < m, Q.eval (nthRoot F M ^ i) = v i) :
    gadP M m v = Q := by
  symm
  apply Lagrange.eq_interpolate_of_eval_eq v (root_injOn hM hm)
  · rwa [card_range]
  · intro i hi; exact h i (by simpa using hi)

theorem wireP_sum {ι : Type} [Fintype ι] (L : ℕ) (vs : ι → ℕ → F) (v : ℕ → F)
    (h : ∀ i < 2 ^ L, v i = ∑ k, vs k i) : wireP L v = ∑ k, wireP L (vs k) := by
  unfold wireP
  rw [← map_sum]
  apply Lagrange.interpolate_eq_of_values_eq_on
  intro i hi
  rw [h i (by simpa using hi), Finset.sum_apply]

theorem gadP_sum {ι : Type} [Fintype ι] (M m : ℕ) (vs : ι → ℕ → F) (v : ℕ → F)
    (h : ∀ i < m, v i = ∑ k, vs k i) : gadP M m v = ∑ k, gadP M m (vs k) := by
  unfold gadP
  rw [← map_sum]
  apply Lagrange.interpolate_eq_of_values_eq_on
  intro i hi
  rw [h i (by simpa using hi), Finset.sum_apply]

theorem nthRoot_pow_sub {L M : ℕ} (h : L ≤ M) (hM : M ≤ NttField.logOrder F) :
    nthRoot F M ^ 2 ^ (M - L) = nthRoot F L := by
  induction M with
  | zero => obtain rfl : L = 0 := by omega
            simp
  | succ M ih =>
    by_cases hL : L = M + 1
    · subst hL; simp
    · rw [show M + 1 - L = (M - L) + 1 by omega, pow_succ', pow_mul, nthRoot_succ_sq hM]
      exact ih (by omega) (by omega)

theorem doubleUntil_done {size fuel : ℕ} {gp : List F} (h : size ≤ gp.length) :
    doubleUntil size fuel gp = .ok gp := by
  cases fuel with
  | zero => rw [doubleUntil, if_neg (by omega)]
  | succ n => rw [doubleUntil, if_neg (by omega)]

end wires

/-- What the FLP needs from a gadget with wire polynomials of length `2^L`: on wire
polynomials `Ws` it computes a polynomial `Q` of degree at most `DEGREE * (2^L - 1)` such
that `Q(x)` is the gadget on the values `Ws(x)`. -/
def Gadget.Lawful {F : Type} [NttField F] (g : Gadget F) (L : ℕ) : Prop :=
  ∀ Ws : List F[X], Ws.length = g.arity → (∀ W ∈ Ws, W.degree < ((2 ^ L : ℕ) : WithBot ℕ)) →
    ∃ Q : F[X], Q.degree < ((gadgetPolyLen g.degree (2 ^ L) : ℕ) : WithBot ℕ) ∧
      g.evalPoly (Ws.map fun W => Spec.evals W (nthRoot F L) (2 ^ L)) =
        .ok (Spec.evals Q (nthRoot F (Nat.size (gadgetPolyLen g.degree (2 ^ L) - 1)))
          (2 ^ Nat.size (gadgetPolyLen g.degree (2 ^ L) - 1))) ∧
      ∀ x, g.eval (Ws.map fun W => W.eval x) = .ok (Q.eval x)

section
variable {F : Type} [NttField F] {Meas Agg : Type} (V : Valid F Meas Agg)

instance : Inhabited (Gadget F) := ⟨⟨0, 0, fun _ => .error .index, fun _ => .error .index⟩⟩

namespace Valid

def num : ℕ := V.gadgets.length
def gad (g : ℕ) : Gadget F := V.gadgets.getD g default
def calls (g : ℕ) : ℕ := V.gadgetCalls.getD g 0
def ar (g : ℕ) : ℕ := (V.gad g).arity
/-- The wire polynomials of gadget `g` have length `2 ^ L g`. -/
def L (g : ℕ) : ℕ := Nat.size (V.calls g)
/-- The length of the gadget polynomial in the proof. -/
def m (g : ℕ) : ℕ := gadgetPolyLen (V.gad g).degree (2 ^ V.L g)
def M (g : ℕ) : ℕ := Nat.size (V.m g - 1)
/-- Where the part of gadget `g` starts in a proof. -/
def off (g : ℕ) : ℕ := ∑ i ∈ range g, (V.ar i + V.m i)
/-- Where the wire seeds of gadget `g` start in the prover randomness. -/
def poff (g : ℕ) : ℕ := ∑ i ∈ range g, V.ar i

/-- What a validity circuit has to satisfy. -/
structure Lawful : Prop where
  len : V.gadgetCalls.length = V.gadgets.length
  calls_pos : ∀ g < V.num, 1 ≤ V.calls g
  ar_pos : ∀ g < V.num, 1 ≤ V.ar g
  deg_pos : ∀ g < V.num, 1 ≤ (V.gad g).degree
  cap : ∀ g < V.num, V.M g ≤ NttField.logOrder F
  gadget : ∀ g < V.num, (V.gad g).Lawful (V.L g)
  out_pos : 1 ≤ V.evalOutputLen
  wf : ∀ (meas jr : List F) (N : ℕ), meas.length = V.measLen → jr.length = V.jointRandLen →
    1 ≤ N → N < PyField.modulus F →
    (V.eval meas jr N).WF V.num V.ar (fun out => out.length = V.evalOutputLen)
      (fun g => if g < V.num then V.calls g else 0)
  affine : ∀ (N : ℕ), 1 ≤ N → N < PyField.modulus F → ∀ (ms : Fin N → List F) (meas jr : List F),
    Spec.IsSum ms meas → meas.length = V.measLen → jr.length = V.jointRandLen →
    Prog.Lock Spec.IsSum (V.eval meas jr 1) (fun i => V.eval (ms i) jr N)

theorem gadgets_eq : V.gadgets = tab V.num V.gad := by
  apply List.ext_getElem
  · simp [num]
  · intro i h1 h2; rw [tab_getElem]; simp [gad, h1]

variable {V}

theorem Lawful.gadgetCalls_eq (h : V.Lawful) : V.gadgetCalls = tab V.num V.calls := by
  apply List.ext_getElem
  · simp [num, h.len]
  · intro i h1 h2; rw [tab_getElem]; simp [calls, h1]

theorem Lawful.zip_eq (h : V.Lawful) :
    List.zip V.gadgets V.gadgetCalls = tab V.num fun g => (V.gad g, V.calls g) := by
  rw [gadgets_eq, h.gadgetCalls_eq, zip_tab]

theorem wirePolyLen_eq (V : Valid F Meas Agg) (g : ℕ) :
    wirePolyLen (V.calls g) = .ok (2 ^ V.L g) := by
  unfold wirePolyLen
  rw [nextPowerOf2_of_pos (by omega)]
  simp [L]

theorem calls_lt (V : Valid F Meas Agg) (g : ℕ) : V.calls g < 2 ^ V.L g := Nat.lt_size_self _

theorem m_pos (V : Valid F Meas Agg) (g : ℕ) : 0 < V.m g := by simp [m, gadgetPolyLen]

theorem m_le (V : Valid F Meas Agg) (g : ℕ) : V.m g ≤ 2 ^ V.M g := by
  have := V.m_pos g
  have := Nat.lt_size_self (V.m g - 1)
  unfold M; omega

theorem Lawful.L_le_M (h : V.Lawful) {g : ℕ} (hg : g < V.num) : V.L g ≤ V.M g := by
  have h1 := h.calls_pos g hg
  have h2 := h.deg_pos g hg
  unfold M m gadgetPolyLen
  rw [Nat.add_sub_cancel]
  have h3 : V.calls g ≤ 2 ^ V.L g - 1 := by have := V.calls_lt g; omega
  calc V.L g = Nat.size (V.calls g) := rfl
    _ ≤ _ := Nat.size_le_size (le_trans h3 (Nat.le_mul_of_pos_left _ h2))

theorem Lawful.L_le (h : V.Lawful) {g : ℕ} (hg : g < V.num) : V.L g ≤ NttField.logOrder F :=
  (h.L_le_M hg).trans (h.cap g hg)

theorem Lawful.two_le (h : V.Lawful) {g : ℕ} (hg : g < V.num) : 2 ≤ 2 ^ V.L g := by
  have := h.calls_pos g hg
  have := V.calls_lt g
  omega

theorem Lawful.proofLen_eq (h : V.Lawful) : V.proofLen = .ok (V.off V.num) := by
  unfold proofLen
  rw [h.zip_eq]
  obtain ⟨b, hb, hP⟩ := forFold_inv (tab V.num fun g => (V.gad g, V.calls g)) 0
    (fun length (x : Gadget F × ℕ) => do
      let p ← wirePolyLen x.2
      return length + (x.1.arity + gadgetPolyLen x.1.degree p))
    (fun i b => b = V.off i) (by simp [off]) (by
      rintro i hi _ rfl
      rw [tab_getElem]
      simp only [wirePolyLen_eq, Except.ok_bind', Except.pure_eq']
      refine ⟨_, rfl, ?_⟩
      simp [off, sum_range_succ, ar, m])
  simp only [tab_length] at hP
  subst hP
  exact hb

theorem proveRandLen_eq (V : Valid F Meas Agg) : V.proveRandLen = V.poff V.num := by
  unfold proveRandLen poff
  rw [gadgets_eq, tab_map]
  simp only [tab, ar]
  induction V.num with
  | zero => rfl
  | succ n ih => rw [List.range_succ, List.map_append, List.sum_append, ih, sum_range_succ]; simp

theorem verifierLen_eq (V : Valid F Meas Agg) :
    V.verifierLen = 1 + ∑ g ∈ range V.num, (V.ar g + 1) := by
  unfold verifierLen
  rw [gadgets_eq]
  simp only [tab, List.foldl_map, ar]
  induction V.num with
  | zero => rfl
  | succ n ih => rw [List.range_succ, List.foldl_append, ih, sum_range_succ]; simp; ring

/-! ### `query` -/

/-- Wire seed `j` of gadget `g` in the proof `π`. -/
def sdq (V : Valid F Meas Agg) (π : List F) (g j : ℕ) : F := coef π (V.off g + j)
/-- Value `i` of the gadget polynomial of gadget `g` in the proof `π`. -/
def gvq (V : Valid F Meas Agg) (π : List F) (g i : ℕ) : F := coef π (V.off g + V.ar g + i)
/-- The gadget polynomial of gadget `g` encoded in the proof `π`. -/
noncomputable def Pq (V : Valid F Meas Agg) (π : List F) (g : ℕ) : F[X] :=
  gadP (V.M g) (V.m g) (V.gvq π g)

/-- The state of the wrapped gadget `g` after the calls with inputs `inps`. -/
noncomputable def qg (V : Valid F Meas Agg) (π : List F) (g : ℕ) (inps : List (List F)) :
    QueryGadget F :=
  ⟨V.ar g, wiresOf (V.sdq π g) (V.ar g) (2 ^ V.L g) inps, inps.length,
    Spec.evals (V.Pq π g) (nthRoot F (V.M g)) (2 ^ V.M g), 2 ^ (V.M g - V.L g)⟩

theorem Lawful.genOrder_mod (h : V.Lawful) {g : ℕ} (hg : g < V.num) :
    NttField.genOrder F % 2 ^ V.L g = 0 := by
  rw [NttField.genOrder_eq]
  exact Nat.mod_eq_zero_of_dvd (pow_dvd_pow 2 (h.L_le hg))

theorem Lawful.queryInit (h : V.Lawful) {g : ℕ} (hg : g < V.num) (π seeds gp : List F)
    (hs : seeds.length = V.ar g) (hgp : gp.length = V.m g)
    (hs' : ∀ j < V.ar g, coef seeds j = V.sdq π g j)
    (hgp' : ∀ i < V.m g, coef gp i = V.gvq π g i) :
    QueryGadget.init seeds gp (V.gad g) (V.calls g) = .ok (V.qg π g []) := by
  have hgpe : gp = Spec.evals (V.Pq π g) (nthRoot F (V.M g)) (V.m g) := by
    rw [Pq, ← gadP_evals (h.cap g hg) (V.m_le g)]
    apply list_eq_of_coef (by simpa using hgp)
    intro j hj
    rw [hgp] at hj
    rw [hgp' j hj, coef_tab, if_pos hj]
  unfold QueryGadget.init
  rw [pyAssert_of' (show seeds.length = (V.gad g).arity from hs), wirePolyLen_eq]
  simp only [Except.ok_bind']
  rw [pyAssert_of' (h.genOrder_mod hg), initWires_eq (by positivity) seeds (V.sdq π g)
    (by rw [hs]; exact hs'), nextPowerOf2_of_pos (by rw [hgp]; exact V.m_pos g)]
  simp only [Except.ok_bind']
  rw [hgp, show 2 ^ Nat.size (V.m g - 1) = 2 ^ V.M g from rfl]
  conv_lhs => rw [hgpe]
  rw [extendValues_evals (h.cap g hg) (V.m_le g) (V.Pq π g) (gadP_degree (h.cap g hg) (V.m_le g) _)]
  simp only [Except.ok_bind']
  rw [show gadgetPolyLen (V.gad g).degree (2 ^ V.L g) = V.m g from rfl,
    nextPowerOf2_of_pos (V.m_pos g)]
  simp only [Except.ok_bind']
  rw [show 2 ^ Nat.size (V.m g - 1) = 2 ^ V.M g from rfl,
    doubleUntil_done (by rw [evals_length]), assertPowerOf2_pow, assertPowerOf2_pow]
  simp only [Except.ok_bind']
  rw [raiseIf_of_not (by have := h.L_le_M hg; omega)]
  simp only [Except.ok_bind', Except.pure_eq', Nat.one_shiftLeft, hs]
  rfl

theorem off_succ (V : Valid F Meas Agg) (g : ℕ) :
    V.off (g + 1) = V.off g + V.ar g + V.m g := by
  simp [off, sum_range_succ, add_assoc]

theorem off_mono (V : Valid F Meas Agg) {a b : ℕ} (h : a ≤ b) : V.off a ≤ V.off b :=
  Finset.sum_le_sum_of_subset (by simpa using h)

theorem coef_take_drop (l : List F) (a k j : ℕ) (hj : j < k) :
    coef ((l.drop a).take k) j = coef l (a + j) := by
  unfold coef
  simp only [List.getD_eq_getElem?_getD, List.getElem?_take, List.getElem?_drop, if_pos hj]

theorem Lawful.queryWrap (h : V.Lawful) (π : List F) (hπ : π.length = V.off V.num) :
    QueryGadget.wrap V π = .ok (tab V.num fun g => V.qg π g []) := by
  unfold QueryGadget.wrap
  rw [h.proofLen_eq]
  simp only [Except.ok_bind']
  rw [pyAssert_of' hπ, h.zip_eq]
  simp only [Except.ok_bind']
  obtain ⟨b, hb, hP⟩ := forFold_inv (tab V.num fun g => (V.gad g, V.calls g))
    (([], π) : List (QueryGadget F) × List F)
    (fun st (x : Gadget F × ℕ) => do
        let p ← wirePolyLen x.2
        let gPolyLen := gadgetPolyLen x.1.degree p
        let (wireSeeds, proof) ← front x.1.arity st.2
        let (gadgetPoly, proof) ← front gPolyLen proof
        let w ← QueryGadget.init wireSeeds gadgetPoly x.1 x.2
        return (st.1 ++ [w], proof))
    (fun i st => st = (tab i fun g => V.qg π g [], π.drop (V.off i)))
    (by simp [off, tab]) (by
      rintro g hg _ rfl
      have hg' : g < V.num := by simpa using hg
      rw [tab_getElem]
      have h1 := V.off_succ g
      have h2 := V.off_mono (show g + 1 ≤ V.num from hg')
      simp only [wirePolyLen_eq, Except.ok_bind']
      rw [show (V.gad g).arity = V.ar g from rfl,
        front_of_le (show V.ar g ≤ (π.drop (V.off g)).length by simp; omega)]
      simp only [Except.ok_bind']
      rw [show gadgetPolyLen (V.gad g).degree (2 ^ V.L g) = V.m g from rfl,
        front_of_le (show V.m g ≤ ((π.drop (V.off g)).drop (V.ar g)).length by simp; omega)]
      simp only [Except.ok_bind', List.drop_drop]
      rw [h.queryInit hg' π]
      · simp only [Except.ok_bind', Except.pure_eq']
        exact ⟨_, rfl, by rw [tab_succ, h1]⟩
      · simp; omega
      · simp; omega
      · intro j hj; rw [coef_take_drop _ _ _ _ hj]; rfl
      · intro j hj; rw [coef_take_drop _ _ _ _ hj]; rfl)
  have hb' : (forFold (tab V.num fun g => (V.gad g, V.calls g))
    (([], π) : List (QueryGadget F) × List F) fun x x_1 =>
      match x with
      | (wrapped, proof) =>
        match x_1 with
        | (g, gCalls) => do
          let p ← wirePolyLen gCalls
          let gPolyLen := gadgetPolyLen g.degree p
          let (wireSeeds, proof) ← front g.arity proof
          let (gadgetPoly, proof) ← front gPolyLen proof
          let w ← QueryGadget.init wireSeeds gadgetPoly g gCalls
          return (wrapped ++ [w], proof)) = .ok b := hb
  rw [hb', hP]
  simp only [Except.ok_bind', tab_length]
  rw [pyAssert_of' (by simp [hπ])]
  rfl

/-- The answers of the wrapped gadgets in `query`. -/
noncomputable def ansq (V : Valid F Meas Agg) (π : List F) (g k : ℕ) : F :=
  (V.Pq π g).eval (nthRoot F (V.L g) ^ (k + 1))

theorem Lawful.queryHandler (h : V.Lawful) (π : List F) (log : Prog.Log F) (g : ℕ) (inp : List F)
    (hg : g < V.num) (hinp : inp.length = V.ar g) (hc : (log g).length < V.calls g) :
    QueryGadget.handler (tab V.num fun g => V.qg π g (log g)) g inp =
      .ok (V.ansq π g (log g).length, tab V.num fun g' =>
        V.qg π g' (Function.update log g (log g ++ [inp]) g')) := by
  have hlt := V.calls_lt g
  unfold QueryGadget.handler QueryGadget.eval
  rw [getI_tab hg]
  simp only [Except.ok_bind', qg]
  rw [recordWires_eq hinp (by omega)]
  simp only [Except.ok_bind']
  have hidx : ((log g).length + 1) * 2 ^ (V.M g - V.L g) < 2 ^ V.M g := by
    calc ((log g).length + 1) * 2 ^ (V.M g - V.L g) < 2 ^ V.L g * 2 ^ (V.M g - V.L g) :=
          Nat.mul_lt_mul_of_pos_right (by omega) (by positivity)
      _ = 2 ^ V.M g := by rw [← pow_add]; congr 1; have := h.L_le_M hg; omega
  rw [getI_of_lt (by rw [evals_length]; exact hidx)]
  simp only [Except.ok_bind', Except.pure_eq', evals_getElem]
  rw [setI_tab hg]
  simp only [Except.ok_bind']
  congr 2
  · unfold ansq
    rw [← nthRoot_pow_sub (h.L_le_M hg) (h.cap g hg), ← pow_mul, mul_comm]
  · apply tab_congr
    intro g' _
    by_cases hgg : g' = g
    · subst hgg; simp
    · simp [hgg]

/-- The part of the verifier message for gadget `g` with test point `t`. -/
noncomputable def vpart (V : Valid F Meas Agg) (π : List F) (log : Prog.Log F) (t : ℕ → F)
    (g : ℕ) : List F :=
  tab (V.ar g) (fun j => (wireP (V.L g) (wval (V.sdq π g) (log g) j)).eval (t g)) ++
    [(V.Pq π g).eval (t g)]

/-- The reduced circuit output. -/
def reduceOut (e : ℕ) (out : List F) (qr : List F) : F :=
  if 1 < e then ∑ j ∈ range e, coef qr j * coef out j else coef out 0

/-- Where the test points start in the query randomness. -/
def toff (e : ℕ) : ℕ := if 1 < e then e else 0

theorem foldl_zip_sum (rand out : List F) (n : ℕ) (h1 : rand.length = n) (h2 : out.length = n)
    (v : F) :
    (List.zip rand out).foldl (fun v (x : F × F) => v + x.1 * x.2) v =
      v + ∑ j ∈ range n, coef rand j * coef out j := by
  induction n generalizing rand out v with
  | zero => simp [List.length_eq_zero_iff.1 h1]
  | succ n ih =>
    obtain ⟨a, rand, rfl⟩ := List.exists_cons_of_length_eq_add_one h1
    obtain ⟨b, out, rfl⟩ := List.exists_cons_of_length_eq_add_one h2
    simp only [List.zip_cons_cons, List.foldl_cons]
    rw [ih rand out (by simpa using h1) (by simpa using h2), sum_range_succ']
    simp [coef]; ring

theorem forFold_tab_append_or_error {α : Type} (n : ℕ) (f : ℕ → α) (bad : ℕ → Prop)
    [DecidablePred bad] (e : Err) (blk : ℕ → List F) (init : List F)
    (step : List F → α → Res (List F))
    (hstep : ∀ i < n, ∀ acc, step acc (f i) = if bad i then .error e else .ok (acc ++ blk i)) :
    forFold (tab n f) init step =
      if ∃ i < n, bad i then .error e else .ok (init ++ (List.range n).flatMap blk) := by
  induction n with
  | zero => simp [tab]
  | succ n ih =>
    rw [tab_succ, forFold_append, ih fun i hi => hstep i (by omega)]
    by_cases hb : ∃ i < n, bad i
    · rw [if_pos hb, if_pos (by obtain ⟨i, h1, h2⟩ := hb; exact ⟨i, by omega, h2⟩)]
      rfl
    · rw [if_neg hb]
      simp only [Except.ok_bind', forFold_cons, forFold_nil]
      rw [hstep n (by omega)]
      by_cases hn : bad n
      · rw [if_pos hn, if_pos ⟨n, by omega, hn⟩]; rfl
      · rw [if_neg hn, if_neg]
        · simp only [Except.ok_bind', List.range_succ, List.flatMap_append, List.flatMap_cons,
            List.flatMap_nil, List.append_nil, List.append_assoc]
        · rintro ⟨i, hi, hbi⟩
          by_cases h : i = n
          · subst h; exact hn hbi
          · exact hb ⟨i, by omega, hbi⟩

/-- Exact characterisation of `query` on inputs of the right lengths. -/
theorem Lawful.query_eq (h : V.Lawful) {meas π qr jr : List F} {N : ℕ}
    (hmeas : meas.length = V.measLen) (hπ : π.length = V.off V.num)
    (hqr : qr.length = V.queryRandLen) (hjr : jr.length = V.jointRandLen)
    (hN : 1 ≤ N) (hN' : N < PyField.modulus F) :
    ∃ out log, (V.eval meas jr N).trace (fun g k _ => V.ansq π g k) (fun _ => []) =
        .ok (out, log) ∧ out.length = V.evalOutputLen ∧
      (∀ g < V.num, (log g).length = V.calls g) ∧
      (∀ g, ∀ inp ∈ log g, inp.length = V.ar g) ∧
      V.query meas π qr jr N =
        if ∃ g < V.num, coef qr (toff V.evalOutputLen + g) ^ 2 ^ V.L g = 1
          then .error rootOfUnityErr
          else .ok (reduceOut V.evalOutputLen out qr :: (List.range V.num).flatMap
            (V.vpart π log fun g => coef qr (toff V.evalOutputLen + g))) := by
  obtain ⟨st, out, log, hrun, htrace, hst⟩ := Prog.run_sim (C := V.calls)
    (ans := fun g k _ => V.ansq π g k)
    QueryGadget.handler (fun log st => st = tab V.num fun g => V.qg π g (log g))
    (by
      rintro log _ g inp rfl hg hinp hc
      exact ⟨_, h.queryHandler π log g inp hg hinp hc, rfl⟩)
    (h.wf meas jr N hmeas hjr hN hN') (fun _ => []) _
    (by intro g; simp only [List.length_nil, zero_add]; split <;> omega) rfl
  obtain ⟨out', log', htrace', hout, hlen, -, hmem⟩ := Prog.trace_wf
    (fun g k _ => V.ansq π g k) (h.wf meas jr N hmeas hjr hN hN') (fun _ => [])
  rw [htrace] at htrace'
  obtain ⟨rfl, rfl⟩ : out = out' ∧ log = log' := by simpa using htrace'
  refine ⟨out, log, htrace, hout, fun g hg => by simpa [hg] using hlen g,
    fun g inp hi => by simpa using hmem g inp hi, ?_⟩
  unfold query
  rw [pyAssert_of' hmeas, h.proofLen_eq]
  simp only [Except.ok_bind']
  rw [pyAssert_of' hπ, pyAssert_of' hqr, pyAssert_of' hjr, h.queryWrap π hπ]
  simp only [Except.ok_bind']
  rw [hrun]
  simp only [Except.ok_bind']
  rw [pyAssert_of' hout]
  simp only [Except.ok_bind']
  have hred : queryReduce V.evalOutputLen out qr =
      .ok (reduceOut V.evalOutputLen out qr, qr.drop (toff V.evalOutputLen)) := by
    unfold queryReduce
    unfold queryRandLen at hqr
    unfold reduceOut toff
    by_cases he : V.evalOutputLen > 1
    · rw [if_pos he] at hqr
      rw [if_pos he, if_pos (show 1 < V.evalOutputLen from he),
        if_pos (show 1 < V.evalOutputLen from he), front_of_le (by omega)]
      simp only [Except.ok_bind', Except.pure_eq']
      rw [foldl_zip_sum _ _ V.evalOutputLen (by simp; omega) hout, zero_add]
      congr 2
      apply Finset.sum_congr rfl
      intro j hj
      have := coef_take_drop qr 0 V.evalOutputLen j (by simpa using hj)
      simp only [List.drop_zero, zero_add] at this
      rw [this]
    · rw [if_neg he, if_neg (show ¬ 1 < V.evalOutputLen from he),
        if_neg (show ¬ 1 < V.evalOutputLen from he)]
      have := h.out_pos
      obtain ⟨v, rfl⟩ := List.length_eq_one_iff.1 (show out.length = 1 by omega)
      simp [coef]
  have hlq : (qr.drop (toff V.evalOutputLen)).length = V.num := by
    unfold queryRandLen at hqr
    unfold toff num
    rw [List.length_drop, hqr]
    split <;> omega
  have hdrop : qr.drop (toff V.evalOutputLen) =
      tab V.num fun g => coef qr (toff V.evalOutputLen + g) := by
    apply list_eq_of_coef (by simpa using hlq)
    intro j hj
    rw [hlq] at hj
    rw [coef_tab, if_pos hj]
    unfold coef
    simp [List.getD_eq_getElem?_getD]
  rw [hred]
  simp only [Except.ok_bind']
  rw [hdrop, hst, zip_tab]
  rw [forFold_tab_append_or_error V.num _
    (fun g => coef qr (toff V.evalOutputLen + g) ^ 2 ^ V.L g = 1) rootOfUnityErr
    (V.vpart π log fun g => coef qr (toff V.evalOutputLen + g))]
  · rfl
  · intro g hg acc
    have hap := h.ar_pos g hg
    simp only [queryStep, qg]
    rw [show getI (wiresOf (V.sdq π g) (V.ar g) (2 ^ V.L g) (log g)) 0 = .ok
      (tab (2 ^ V.L g) (wval (V.sdq π g) (log g) 0)) from getI_tab (by omega)]
    simp only [Except.ok_bind', tab_length]
    split
    · rfl
    · have htake : (wiresOf (V.sdq π g) (V.ar g) (2 ^ V.L g) (log g)).take (V.ar g) =
          (tab (V.ar g) fun j => wireP (V.L g) (wval (V.sdq π g) (log g) j)).map
            fun P => Spec.evals P (nthRoot F (V.L g)) (2 ^ V.L g) := by
        rw [List.take_of_length_le (by simp [wiresOf]), tab_map]
        unfold wiresOf
        apply tab_congr
        intro j _
        exact wireP_evals (h.L_le hg) _
      rw [htake, polyEvalBatched_evals (h.L_le hg)]
      · simp only [Except.ok_bind']
        rw [lagPolyEval_evals (h.cap g hg) (V.Pq π g) (lt_of_lt_of_le
          (gadP_degree (h.cap g hg) (V.m_le g) _) (by exact_mod_cast V.m_le g))]
        simp only [Except.ok_bind', Except.pure_eq', tab_map, List.append_assoc]
        rfl
      · intro h0
        have := congrArg List.length h0
        simp at this; omega
      · intro P hP
        simp only [tab, List.mem_map] at hP
        obtain ⟨j, -, rfl⟩ := hP
        exact wireP_degree (h.L_le hg) _

/-! ### `prove` -/

/-- The value of a gadget on an input of the right length. -/
def _root_.Vdaf.Gadget.val (G : Gadget F) (inp : List F) : F :=
  match G.eval inp with
  | .ok y => y
  | .error _ => 0

theorem _root_.Vdaf.Gadget.Lawful.eval_eq {G : Gadget F} {L : ℕ} (h : G.Lawful L) (inp : List F)
    (hinp : inp.length = G.arity) : G.eval inp = .ok (G.val inp) := by
  obtain ⟨Q, -, -, hQ⟩ := h (inp.map C) (by simpa using hinp) (by
    intro W hW
    simp only [List.mem_map] at hW
    obtain ⟨a, -, rfl⟩ := hW
    exact lt_of_le_of_lt degree_C_le (by exact_mod_cast Nat.two_pow_pos L))
  have := hQ 0
  simp only [List.map_map] at this
  rw [show ((fun W : F[X] => Polynomial.eval 0 W) ∘ C) = id by ext a; simp, List.map_id] at this
  unfold Gadget.val
  rw [this]

/-- Wire seed `j` of gadget `g` in the prover randomness. -/
def sdp (V : Valid F Meas Agg) (pr : List F) (g j : ℕ) : F := coef pr (V.poff g + j)

def pg (V : Valid F Meas Agg) (pr : List F) (g : ℕ) (inps : List (List F)) : ProveGadget F :=
  ⟨V.gad g, wiresOf (V.sdp pr g) (V.ar g) (2 ^ V.L g) inps, inps.length⟩

theorem poff_succ (V : Valid F Meas Agg) (g : ℕ) : V.poff (g + 1) = V.poff g + V.ar g := by
  simp [poff, sum_range_succ]

theorem poff_mono (V : Valid F Meas Agg) {a b : ℕ} (h : a ≤ b) : V.poff a ≤ V.poff b :=
  Finset.sum_le_sum_of_subset (by simpa using h)

theorem Lawful.proveWrap (h : V.Lawful) (pr : List F) (hpr : pr.length = V.poff V.num) :
    ProveGadget.wrap V pr = .ok (tab V.num fun g => V.pg pr g []) := by
  unfold ProveGadget.wrap
  rw [proveRandLen_eq, pyAssert_of' hpr, h.zip_eq]
  simp only [Except.ok_bind']
  obtain ⟨b, hb, hP⟩ := forFold_inv (tab V.num fun g => (V.gad g, V.calls g))
    (([], pr) : List (ProveGadget F) × List F)
    (fun st (x : Gadget F × ℕ) => do
        let (wireSeeds, proveRand) ← front x.1.arity st.2
        let w ← ProveGadget.init wireSeeds x.1 x.2
        return (st.1 ++ [w], proveRand))
    (fun i st => st = (tab i fun g => V.pg pr g [], pr.drop (V.poff i)))
    (by simp [poff, tab]) (by
      rintro g hg _ rfl
      have hg' : g < V.num := by simpa using hg
      rw [tab_getElem]
      have h1 := V.poff_succ g
      have h2 := V.poff_mono (show g + 1 ≤ V.num from hg')
      simp only
      rw [show (V.gad g).arity = V.ar g from rfl,
        front_of_le (show V.ar g ≤ (pr.drop (V.poff g)).length by simp; omega)]
      simp only [Except.ok_bind', List.drop_drop]
      have hsl : ((pr.drop (V.poff g)).take (V.ar g)).length = V.ar g := by simp; omega
      have hinit : ProveGadget.init ((pr.drop (V.poff g)).take (V.ar g)) (V.gad g) (V.calls g) =
          .ok (V.pg pr g []) := by
        unfold ProveGadget.init
        rw [pyAssert_of' (show _ = (V.gad g).arity from hsl), wirePolyLen_eq]
        simp only [Except.ok_bind']
        rw [initWires_eq (by positivity) _ (V.sdp pr g) (by
          intro j hj
          rw [hsl] at hj
          rw [coef_take_drop _ _ _ _ hj]; rfl), hsl]
        rfl
      rw [hinit]
      simp only [Except.ok_bind', Except.pure_eq']
      exact ⟨_, rfl, by rw [tab_succ, h1]⟩)
  have hb' : (forFold (tab V.num fun g => (V.gad g, V.calls g))
    (([], pr) : List (ProveGadget F) × List F) fun x x_1 =>
      match x with
      | (wrapped, proveRand) =>
        match x_1 with
        | (g, gCalls) => do
          let (wireSeeds, proveRand) ← front g.arity proveRand
          let w ← ProveGadget.init wireSeeds g gCalls
          return (wrapped ++ [w], proveRand)) = .ok b := hb
  rw [hb', hP]
  simp only [Except.ok_bind', tab_length]
  rw [pyAssert_of' (by simp [hpr])]
  rfl

theorem Lawful.proveHandler (h : V.Lawful) (pr : List F) (log : Prog.Log F) (g : ℕ)
    (inp : List F) (hg : g < V.num) (hinp : inp.length = V.ar g)
    (hc : (log g).length < V.calls g) :
    ProveGadget.handler (tab V.num fun g => V.pg pr g (log g)) g inp =
      .ok ((V.gad g).val inp, tab V.num fun g' =>
        V.pg pr g' (Function.update log g (log g ++ [inp]) g')) := by
  have hlt := V.calls_lt g
  unfold ProveGadget.handler ProveGadget.eval
  rw [getI_tab hg]
  simp only [Except.ok_bind', pg]
  rw [recordWires_eq hinp (by omega), (h.gadget g hg).eval_eq inp hinp]
  simp only [Except.ok_bind', Except.pure_eq']
  rw [setI_tab hg]
  simp only [Except.ok_bind']
  congr 2
  apply tab_congr
  intro g' _
  by_cases hgg : g' = g
  · subst hgg; simp
  · simp [hgg]

theorem Lawful.evalPlain_eq (h : V.Lawful) {meas jr : List F} {N : ℕ}
    (hmeas : meas.length = V.measLen) (hjr : jr.length = V.jointRandLen)
    (hN : 1 ≤ N) (hN' : N < PyField.modulus F) :
    ∃ out log, (V.eval meas jr N).trace (fun g _ inp => (V.gad g).val inp) (fun _ => []) =
        .ok (out, log) ∧ out.length = V.evalOutputLen ∧
      (∀ g < V.num, (log g).length = V.calls g) ∧
      (∀ g, ∀ inp ∈ log g, inp.length = V.ar g) ∧
      V.evalPlain meas jr N = .ok out := by
  obtain ⟨st, out, log, hrun, htrace, -⟩ := Prog.run_sim (C := V.calls)
    (ans := fun g _ inp => (V.gad g).val inp)
    (fun (s : Unit) g inp => do
      let gadget ← getI V.gadgets g
      let y ← gadget.eval inp
      return (y, s)) (fun _ _ => True)
    (by
      rintro log _ g inp - hg hinp hc
      refine ⟨(), ?_, trivial⟩
      rw [gadgets_eq, getI_tab hg]
      simp only [Except.ok_bind']
      rw [(h.gadget g hg).eval_eq inp hinp]
      rfl)
    (h.wf meas jr N hmeas hjr hN hN') (fun _ => []) ()
    (by intro g; simp only [List.length_nil, zero_add]; split <;> omega) trivial
  obtain ⟨out', log', htrace', hout, hlen, -, hmem⟩ := Prog.trace_wf
    (fun g _ inp => (V.gad g).val inp) (h.wf meas jr N hmeas hjr hN hN') (fun _ => [])
  rw [htrace] at htrace'
  obtain ⟨rfl, rfl⟩ : out = out' ∧ log = log' := by simpa using htrace'
  refine ⟨out, log, htrace, hout, fun g hg => by simpa [hg] using hlen g,
    fun g inp hi => by simpa using hmem g inp hi, ?_⟩
  unfold evalPlain
  rw [hrun]
  rfl

theorem coef_flatMap (n : ℕ) (blk : ℕ → List F) (len : ℕ → ℕ)
    (hlen : ∀ g < n, (blk g).length = len g) (g j : ℕ) (hg : g < n) (hj : j < len g) :
    coef ((List.range n).flatMap blk) (∑ i ∈ range g, len i + j) = coef (blk g) j := by
  induction n with
  | zero => omega
  | succ n ih =>
    have hl : ((List.range n).flatMap blk).length = ∑ i ∈ range n, len i := by
      rw [List.length_flatMap]
      have : (List.map (fun a => (blk a).length) (List.range n)) =
          (List.range n).map len := by
        apply List.map_congr_left
        intro a ha
        exact hlen a (by have := List.mem_range.1 ha; omega)
      rw [this]
      clear * -
      induction n with
      | zero => rfl
      | succ n ih => rw [List.range_succ, List.map_append, List.sum_append, ih, sum_range_succ]; simp
    rw [List.range_succ, List.flatMap_append, coef_append, hl]
    by_cases hgn : g = n
    · subst hgn
      rw [if_neg (by omega), Nat.add_sub_cancel_left]
      simp
    · have hgn' : g < n := by omega
      rw [if_pos, ih (fun g hg => hlen g (by omega)) hgn']
      have : ∑ i ∈ range (g + 1), len i ≤ ∑ i ∈ range n, len i :=
        Finset.sum_le_sum_of_subset (by simpa using hgn')
      rw [sum_range_succ] at this
      omega

theorem length_flatMap_range (n : ℕ) (blk : ℕ → List F) (len : ℕ → ℕ)
    (hlen : ∀ g < n, (blk g).length = len g) :
    ((List.range n).flatMap blk).length = ∑ i ∈ range n, len i := by
  induction n with
  | zero => rfl
  | succ n ih =>
    rw [List.range_succ, List.flatMap_append, List.length_append,
      ih fun g hg => hlen g (by omega), sum_range_succ]
    simp [hlen n (by omega)]

/-- The wire polynomials of gadget `g` in an honest proof. -/
noncomputable def Wp (V : Valid F Meas Agg) (sd : ℕ → ℕ → F) (log : Prog.Log F) (g j : ℕ) : F[X] :=
  wireP (V.L g) (wval (sd g) (log g) j)

/-- Applying a lawful gadget to wire polynomials. -/
theorem Lawful.gadget_tab (h : V.Lawful) {g : ℕ} (hg : g < V.num) (W : ℕ → F[X])
    (hW : ∀ j < V.ar g, (W j).degree < ((2 ^ V.L g : ℕ) : WithBot ℕ)) :
    ∃ Q : F[X], Q.degree < ((V.m g : ℕ) : WithBot ℕ) ∧
      (V.gad g).evalPoly (tab (V.ar g) fun j => Spec.evals (W j) (nthRoot F (V.L g)) (2 ^ V.L g)) =
        .ok (Spec.evals Q (nthRoot F (V.M g)) (2 ^ V.M g)) ∧
      ∀ x, (V.gad g).eval (tab (V.ar g) fun j => (W j).eval x) = .ok (Q.eval x) := by
  obtain ⟨Q, h1, h2, h3⟩ := h.gadget g hg (tab (V.ar g) W) (by simp [ar]) (by
    intro P hP
    simp only [tab, List.mem_map, List.mem_range] at hP
    obtain ⟨j, hj, rfl⟩ := hP
    exact hW j hj)
  refine ⟨Q, h1, ?_, fun x => ?_⟩
  · rw [tab_map] at h2; exact h2
  · have := h3 x; rw [tab_map] at this; exact this

theorem Lawful.prove_eq (h : V.Lawful) {meas pr jr : List F}
    (hmeas : meas.length = V.measLen) (hpr : pr.length = V.proveRandLen)
    (hjr : jr.length = V.jointRandLen) :
    ∃ out log π, (V.eval meas jr 1).trace (fun g _ inp => (V.gad g).val inp) (fun _ => []) =
        .ok (out, log) ∧ out.length = V.evalOutputLen ∧
      (∀ g < V.num, (log g).length = V.calls g) ∧
      (∀ g, ∀ inp ∈ log g, inp.length = V.ar g) ∧
      V.prove meas pr jr = .ok π ∧ π.length = V.off V.num ∧
      ∀ g < V.num, (∀ j < V.ar g, V.sdq π g j = V.sdp pr g j) ∧
        ∀ x, (V.gad g).eval (tab (V.ar g) fun j => (V.Wp (V.sdp pr) log g j).eval x) =
          .ok ((V.Pq π g).eval x) := by
  have hN' := one_lt_modulus F
  rw [proveRandLen_eq] at hpr
  obtain ⟨st, out, log, hrun, htrace, hst⟩ := Prog.run_sim (C := V.calls)
    (ans := fun g _ inp => (V.gad g).val inp)
    ProveGadget.handler (fun log st => st = tab V.num fun g => V.pg pr g (log g))
    (by
      rintro log _ g inp rfl hg hinp hc
      exact ⟨_, h.proveHandler pr log g inp hg hinp hc, rfl⟩)
    (h.wf meas jr 1 hmeas hjr le_rfl hN') (fun _ => []) _
    (by intro g; simp only [List.length_nil, zero_add]; split <;> omega) rfl
  obtain ⟨out', log', htrace', hout, hlen, -, hmem⟩ := Prog.trace_wf
    (fun g _ inp => (V.gad g).val inp) (h.wf meas jr 1 hmeas hjr le_rfl hN') (fun _ => [])
  rw [htrace] at htrace'
  obtain ⟨rfl, rfl⟩ : out = out' ∧ log = log' := by simpa using htrace'
  have hQ : ∀ g, ∃ Q : F[X], g < V.num → Q.degree < ((V.m g : ℕ) : WithBot ℕ) ∧
      (V.gad g).evalPoly (wiresOf (V.sdp pr g) (V.ar g) (2 ^ V.L g) (log g)) =
        .ok (Spec.evals Q (nthRoot F (V.M g)) (2 ^ V.M g)) ∧
      ∀ x, (V.gad g).eval (tab (V.ar g) fun j => (V.Wp (V.sdp pr) log g j).eval x) =
        .ok (Q.eval x) := by
    intro g
    by_cases hg : g < V.num
    · obtain ⟨Q, h1, h2, h3⟩ := h.gadget_tab hg (V.Wp (V.sdp pr) log g)
        (fun j _ => wireP_degree (h.L_le hg) _)
      refine ⟨Q, fun _ => ⟨h1, ?_, h3⟩⟩
      rw [← h2]
      congr 1
      unfold wiresOf
      apply tab_congr
      intro j _
      exact wireP_evals (h.L_le hg) _
    · exact ⟨0, fun h => absurd h hg⟩
  choose Q hQ using hQ
  set blk : ℕ → List F := fun g =>
    tab (V.ar g) (V.sdp pr g) ++ tab (V.m g) (fun i => (Q g).eval (nthRoot F (V.M g) ^ i)) with hblk
  have hblen : ∀ g < V.num, (blk g).length = V.ar g + V.m g := by intro g _; simp [hblk]
  set π := (List.range V.num).flatMap blk with hπ
  have hπlen : π.length = V.off V.num := length_flatMap_range _ _ _ hblen
  refine ⟨out, log, π, htrace, hout, fun g hg => by simpa [hg] using hlen g,
    fun g inp hi => by simpa using hmem g inp hi, ?_, hπlen, ?_⟩
  · unfold prove
    rw [pyAssert_of' hmeas, proveRandLen_eq, pyAssert_of' hpr, pyAssert_of' hjr,
      h.proveWrap pr hpr]
    simp only [Except.ok_bind']
    rw [hrun]
    simp only [Except.ok_bind']
    rw [hst, h.gadgetCalls_eq, zip_tab]
    rw [forFold_tab_append_or_error V.num _ (fun _ => False) .index blk]
    · simp only [and_false, exists_false, if_false, Except.ok_bind', List.nil_append]
      rw [h.proofLen_eq]
      simp only [Except.ok_bind']
      rw [pyAssert_of' hπlen]
      rfl
    · intro g hg acc
      obtain ⟨hd, hp, -⟩ := hQ g hg
      have h2p := h.two_le hg
      simp only [if_false, wirePolyLen_eq, Except.ok_bind', pg]
      rw [pyAssert_of' (h.genOrder_mod hg)]
      simp only [Except.ok_bind']
      rw [mapRes_pure _ (fun j => tab (2 ^ V.L g) (wval (V.sdp pr g) (log g) j)) _ (by
        intro j hj
        exact getI_tab (show j < V.ar g by simpa [ar] using hj))]
      simp only [Except.ok_bind']
      rw [pyAssert_of (by simp)]
      simp only [Except.ok_bind']
      rw [mapRes_pure _ (fun j => V.sdp pr g j) _ (by
        intro j hj
        rw [show getI (wiresOf (V.sdp pr g) (V.ar g) (2 ^ V.L g) (log g)) j =
          .ok (tab (2 ^ V.L g) (wval (V.sdp pr g) (log g) j)) from getI_tab (show j < V.ar g by simpa [ar] using hj)]
        simp only [Except.ok_bind']
        rw [getI_tab (by omega)]
        simp [wval])]
      simp only [Except.ok_bind']
      have hw : List.map (fun j => tab (2 ^ V.L g) (wval (V.sdp pr g) (log g) j))
          (List.range (V.gad g).arity) = wiresOf (V.sdp pr g) (V.ar g) (2 ^ V.L g) (log g) := rfl
      rw [hw, hp]
      simp only [Except.ok_bind', Except.pure_eq']
      have hm := V.m_le g
      have htk : (Spec.evals (Q g) (nthRoot F (V.M g)) (2 ^ V.M g)).take
          (gadgetPolyLen (V.gad g).degree (2 ^ V.L g)) =
          tab (V.m g) (fun i => (Q g).eval (nthRoot F (V.M g) ^ i)) := by
        apply List.ext_getElem
        · simp [evals_length, m] at hm ⊢
          exact hm
        · intro i h1 h2
          simp [evals_getElem, tab_getElem]
      rw [htk, List.append_assoc]
      rfl
  · intro g hg
    obtain ⟨hd, hp, he⟩ := hQ g hg
    have hco : ∀ j < V.ar g + V.m g, coef π (V.off g + j) = coef (blk g) j := fun j hj =>
      coef_flatMap V.num blk (fun g => V.ar g + V.m g) hblen g j hg hj
    constructor
    · intro j hj
      unfold sdq
      rw [hco j (by omega), hblk, coef_append, if_pos (by simpa using hj), coef_tab, if_pos hj]
    · intro x
      rw [he x]
      congr 2
      symm
      apply gadP_unique (h.cap g hg) (V.m_le g) _ _ hd
      intro i hi
      unfold gvq
      rw [add_assoc, hco _ (by omega), hblk, coef_append, if_neg (by simp), coef_tab,
        tab_length, Nat.add_sub_cancel_left, if_pos hi]

end Valid
end
end Vdaf
