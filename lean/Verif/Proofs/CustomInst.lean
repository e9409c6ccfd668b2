import Verif.Proofs.Custom
import Verif.Model.TestCircuits

/-! The circuits of the library and of the tests satisfy `Spec.Computes`. -/

set_option linter.unusedSectionVars false

namespace Vdaf
open Finset Polynomial

variable {F : Type} [NttField F] {Meas Agg : Type}

theorem library_computes {V : Valid F Meas Agg} {fn : Spec.Fun Meas Agg} (hV : Spec.Library F V fn)
    (hfit : Spec.Fits V) : Spec.Computes V (fn.task F) where
  toCircuit := circuit_iff.2 (Library.facts hV hfit).lawful
  encode m hm := by
    have hf := Library.facts hV hfit
    obtain ⟨ints, of, h1, -⟩ := hf.enc
    obtain ⟨e, he, hl, -⟩ := h1 m hm
    exact ⟨e, he, hl, fun jr hjr => ⟨_, hf.accept m e hm he jr hjr, fun x hx => (List.mem_replicate.1 hx).2⟩⟩
  truncate N es e h hl := (Library.encFacts hV).trunc es e h hl
  decode n ms es os tot hms hsup he ho hs hl := by
    obtain ⟨es', os', h1, h2⟩ := C13_encode_truncate_decode hV ms hms
    have hos : os' = os := by
      funext i
      obtain ⟨a, -, b, -⟩ := h1 i
      rw [he i] at a
      rw [← Except.ok.inj a, ho i] at b
      exact (Except.ok.inj b).symm
    subst hos
    exact h2 tot hs hl hsup

theorem sum_toNat_cast {n : ℕ} (ms : Fin n → Int) (h : ∀ i, 0 ≤ ms i) :
    ∑ i, ((ms i : Int) : F) = (((List.ofFn ms).map Int.toNat).sum : ℕ) := by
  rw [List.map_ofFn, List.sum_ofFn]
  push_cast
  apply sum_congr rfl
  intro i _
  simp only [Function.comp]
  obtain ⟨k, hk⟩ := Int.eq_ofNat_of_zero_le (h i)
  rw [hk]; simp

/-- A vector of length one. -/
theorem eq_single {l : List F} (h : l.length = 1) : l = [coef l 0] := by
  match l, h with
  | [x], _ => rfl

theorem single_decode {n : ℕ} {ms : Fin n → Int} {os : Fin n → List F} {tot : List F}
    (h0 : ∀ i, 0 ≤ ms i) (ho : ∀ i, os i = [((ms i : Int) : F)]) (hs : Spec.IsSum os tot) (hl : tot.length = 1) :
    tot = [((((List.ofFn ms).map Int.toNat).sum : ℕ) : F)] := by
  rw [eq_single hl, (isSum_iff.1 hs).2 0, ← sum_toNat_cast ms h0]
  simp [ho, coef]

/-! ### `HigherDegree` -/

theorem hdGadget (hm : 3 < PyField.modulus F) (hcap : 2 ≤ NttField.logOrder F) :
    ∃ G : Gadget F, PolyEval F [0, 2, -3, 1] 1 = .ok G ∧ G.arity = 1 ∧ G.degree = 3 ∧ G.Lawful 1 ∧
      ∀ x, G.eval [x] = .ok (x * (x - 1) * (x - 2)) := by
  obtain ⟨G, hG, h1, h2, h3, ⟨c, h4, hc⟩, h5, h6⟩ := polyEval_lawful (F := F) [0, 2, -3, 1] 1 (by
    intro c hc
    simp only [List.mem_cons, List.not_mem_nil, or_false] at hc
    rcases hc with rfl | rfl | rfl | rfl <;> simp <;> omega) ⟨1, le_rfl, 2, rfl, by omega⟩ (by
    intro i c hi hc
    have : i < 4 := by
      by_contra h
      rw [List.getElem?_eq_none (by simp; omega)] at hi; cases hi
    refine le_trans ?_ hcap
    interval_cases i <;> decide)
  refine ⟨G, hG, h1, ?_, h3, fun x => ?_⟩
  · have := h5 3 1 rfl (by omega)
    have : G.degree < 4 := by
      by_contra h
      rw [List.getElem?_eq_none (by simp; omega)] at h4; cases h4
    omega
  · rw [h6]
    congr 1
    rw [poly_eval _ 4 (by simp)]
    simp [sum_range_succ, coef]
    ring

theorem HigherDegree.eval_eq {G : Gadget F} {meas jr : List F} (N : ℕ) (hm : meas.length = 1)
    (hj : jr.length = 0) :
    (HigherDegree.circuit F G).eval meas jr N = .call 0 [coef meas 0] fun y => .pure [y] := by
  simp only [HigherDegree.circuit, Prog.bind_eq', Prog.pure_eq']
  rw [checkValidEval_ok hm hj, getI_of_lt (by omega), coef_of_lt (by omega)]
  rfl

theorem HigherDegree.computes (hm : 3 < PyField.modulus F) (hcap : 4 ≤ NttField.genOrder F) :
    ∃ V, HigherDegree F = .ok V ∧ Spec.Computes V (Spec.higherDegreeTask F) := by
  have hcap' : 2 ≤ NttField.logOrder F := by
    rw [NttField.genOrder_eq] at hcap
    exact (Nat.pow_le_pow_iff_right (by decide : 1 < 2)).1 hcap
  obtain ⟨G, hG, har, hdeg, hlaw, hev⟩ := hdGadget hm hcap'
  refine ⟨HigherDegree.circuit F G, by unfold HigherDegree; rw [hG]; rfl, ?_⟩
  have hplain : ∀ x : F, (HigherDegree.circuit F G).evalPlain [x] [] 1 = .ok [x * (x - 1) * (x - 2)] := by
    intro x
    unfold Valid.evalPlain
    rw [HigherDegree.eval_eq 1 rfl rfl]
    simp only [Prog.run]
    rw [show getI (HigherDegree.circuit F G).gadgets 0 = .ok G from rfl]
    simp only [Except.ok_bind', coef, List.getD_cons_zero, hev, Except.pure_eq']
  have henc : ∀ m : Int, m = 0 ∨ m = 1 ∨ m = 2 → (HigherDegree.circuit F G).encode m = .ok [(m : F)] := by
    intro m h
    show encodeInt F m = _
    unfold encodeInt
    rw [ofInt_eq (by omega) (by omega)]
    rfl
  refine ⟨⟨rfl, ?_, ?_, le_rfl, fits_single (g := G) (c := 1) rfl rfl (by rw [hdeg]; exact hcap), ?_, ?_, ?_⟩,
    ?_, ?_, ?_⟩
  · simp [HigherDegree.circuit]
  · simp [HigherDegree.circuit, har, hdeg]
  · intro i g c p h1 h2 h3
    have hi : i = 0 := by
      have := (List.getElem?_eq_some_iff.1 h1).1
      simpa [HigherDegree.circuit] using this
    subst hi
    cases h1; cases h2
    rw [wirePolyLen_ok.1 h3]
    exact gadgetLaw_iff.2 hlaw
  · intro meas jr N h1 h2 _ _
    rw [HigherDegree.eval_eq N h1 h2]
    exact .call (c := 0) rfl (by simp [HigherDegree.circuit, har]) fun y => .done (by simp [HigherDegree.circuit]) rfl
  · intro N ms meas jr _ _ hs h1 h2
    rw [HigherDegree.eval_eq 1 h1 h2]
    simp only [HigherDegree.eval_eq N ((hs.1 _).trans h1) h2]
    exact .call (isSum_singleton ((isSum_iff.1 hs).2 0)) fun ys => .done (isSum_singleton rfl)
  · intro m hmv
    refine ⟨_, henc m hmv, rfl, fun jr hjr => ?_⟩
    obtain rfl : jr = [] := List.length_eq_zero_iff.1 hjr
    refine ⟨_, hplain _, ?_⟩
    intro x hx
    rw [List.mem_singleton.1 hx]
    rcases hmv with rfl | rfl | rfl <;> simp
  · intro N es e hs hl
    exact ⟨es, e, rfl, fun _ => rfl, hs, hl⟩
  · intro n ms es os tot hms hsup he ho hs hl
    have hos : ∀ i, os i = [((ms i : Int) : F)] := by
      intro i
      have h1 := he i
      rw [henc _ (hms i)] at h1
      have h2 := ho i
      rw [← Except.ok.inj h1] at h2
      exact (Except.ok.inj h2).symm
    rw [single_decode (fun i => by have := hms i; simp only [Spec.higherDegreeTask] at this; omega) hos hs hl]
    show (do let x ← getI [_] 0; return PyField.toNat x) = _
    simp only [getI, List.getElem?_cons_zero, Except.ok_bind', Except.pure_eq']
    rw [PyField.toNat_natCast _ hsup]
    rfl

/-! ### `MultiGadget` -/

theorem MultiGadget.eval_eq {meas jr : List F} (N : ℕ) (hm : meas.length = 1) (hj : jr.length = 0) :
    (MultiGadget F).eval meas jr N = .call 0 [coef meas 0, coef meas 0] fun x =>
      .call 1 [coef meas 0, x] fun y => .call 1 [x, y] fun z => .pure [z] := by
  simp only [MultiGadget, Prog.bind_eq', Prog.pure_eq']
  rw [checkValidEval_ok hm hj, getI_of_lt (by omega), coef_of_lt (by omega)]
  rfl

theorem MultiGadget.plain (x : F) : (MultiGadget F).evalPlain [x] [] 1 = .ok [x ^ 5] := by
  unfold Valid.evalPlain
  rw [MultiGadget.eval_eq 1 rfl rfl]
  simp only [Prog.run]
  rw [show getI (MultiGadget F).gadgets 0 = .ok (Mul F) from rfl,
    show getI (MultiGadget F).gadgets 1 = .ok (Mul F) from rfl]
  simp only [Except.ok_bind', mul_eval, Except.pure_eq', coef, List.getD_cons_zero]
  congr 2
  ring

theorem MultiGadget.computes (hcap : 8 ≤ NttField.genOrder F) :
    Spec.Computes (MultiGadget F) Spec.multiGadgetTask := by
  have hcap' : 3 ≤ NttField.logOrder F := by
    rw [NttField.genOrder_eq] at hcap
    exact (Nat.pow_le_pow_iff_right (by decide : 1 < 2)).1 hcap
  have hm := one_lt_modulus F
  have henc : (MultiGadget F).encode 0 = .ok [(0 : F)] := by
    show encodeInt F 0 = _
    unfold encodeInt
    rw [ofInt_eq (by omega) (by omega)]
    simp
  have idx : ∀ (i : ℕ) (g : Gadget F) (c p : ℕ), (MultiGadget F).gadgets[i]? = some g →
      (MultiGadget F).gadgetCalls[i]? = some c → wirePolyLen c = .ok p →
      g = Mul F ∧ (p = 2 ^ 1 ∨ p = 2 ^ 2) := by
    intro i g c p h1 h2 h3
    rw [wirePolyLen_ok] at h3
    have hi : i < 2 := by
      have := (List.getElem?_eq_some_iff.1 h1).1
      simpa [MultiGadget] using this
    interval_cases i <;> cases h1 <;> cases h2 <;> subst h3
    · exact ⟨rfl, .inl (by decide)⟩
    · exact ⟨rfl, .inr (by decide)⟩
  refine ⟨⟨rfl, ?_, ?_, le_rfl, ?_, ?_, ?_, ?_⟩, ?_, ?_, ?_⟩
  · simp [MultiGadget]
  · simp [MultiGadget, Mul]
  · intro i g c p h1 h2 h3
    obtain ⟨rfl, h | h⟩ := idx i g c p h1 h2 h3
    · rw [h, show gadgetPolyLen (Mul F).degree (2 ^ 1) = 3 from rfl]; omega
    · rw [h, show gadgetPolyLen (Mul F).degree (2 ^ 2) = 7 from rfl]; omega
  · intro i g c p h1 h2 h3
    obtain ⟨rfl, h | h⟩ := idx i g c p h1 h2 h3 <;> rw [h, gadgetLaw_iff]
    · exact mul_lawful (by simp) (by omega)
    · exact mul_lawful (by simp) (by omega)
  · intro meas jr N h1 h2 _ _
    rw [MultiGadget.eval_eq N h1 h2]
    refine .call (c := 0) rfl rfl fun x => .call (c := 1) rfl rfl fun y => .call (c := 0) rfl rfl fun z =>
      .done (by simp [MultiGadget]) rfl
  · intro N ms meas jr _ _ hs h1 h2
    rw [MultiGadget.eval_eq 1 h1 h2]
    simp only [MultiGadget.eval_eq N ((hs.1 _).trans h1) h2]
    have hc := (isSum_iff.1 hs).2 0
    exact .call (isSum_pair hc hc) fun xs => .call (isSum_pair hc rfl) fun ys => .call (isSum_pair rfl rfl) fun zs =>
      .done (isSum_singleton rfl)
  · intro m hmv
    cases (hmv : m = 0)
    refine ⟨_, henc, rfl, fun jr hjr => ?_⟩
    obtain rfl : jr = [] := List.length_eq_zero_iff.1 hjr
    refine ⟨_, MultiGadget.plain _, ?_⟩
    intro x hx
    rw [List.mem_singleton.1 hx]
    simp
  · intro N es e hs hl
    exact ⟨es, e, rfl, fun _ => rfl, hs, hl⟩
  · intro n ms es os tot hms hsup he ho hs hl
    have hos : ∀ i, os i = [((ms i : Int) : F)] := by
      intro i
      have h0 : ms i = 0 := hms i
      have h1 := he i
      rw [h0, henc] at h1
      have h2 := ho i
      rw [← Except.ok.inj h1] at h2
      rw [h0, Int.cast_zero]
      exact (Except.ok.inj h2).symm
    have h0 : ∀ i, ms i = 0 := hms
    rw [single_decode (fun i => by rw [h0 i]) hos hs hl]
    have : ((List.ofFn ms).map Int.toNat).sum = 0 := by
      rw [List.map_ofFn, List.sum_ofFn]
      exact sum_eq_zero fun i _ => by simp [h0 i]
    rw [this]
    show (do let x ← getI [_] 0; return PyField.toNat x) = _
    simp only [getI, List.getElem?_cons_zero, Except.ok_bind', Except.pure_eq']
    rw [PyField.toNat_natCast _ (by omega)]
    rfl

/-! ### `TestAverage` -/

theorem TestAverage.computes {max : ℕ} (hmax : 0 < max) {V : Valid F Int Nat} (hV : TestAverage F max = .ok V)
    (hfit : Spec.Fits V) : Spec.Computes V (Spec.averageTask F max) := by
  unfold TestAverage at hV
  rw [Except.bind_eq_ok] at hV
  obtain ⟨W, hW, hV⟩ := hV
  cases hV
  have h := library_computes (.sum hmax hW) (show Spec.Fits W from hfit)
  refine ⟨⟨h.calls_length, h.calls_pos, h.gadget_pos, h.output_pos, h.fits, h.gadget, h.eval, h.shares⟩,
    h.encode, h.truncate, ?_⟩
  intro n ms es os tot hms hsup he ho hs hl
  have h1 := h.decode n ms es os tot hms (by
    intro k hk
    rw [List.mem_singleton.1 hk]
    exact hsup.2) he ho hs hl
  dsimp only
  rw [h1]
  simp only [Except.ok_bind']
  have hn : n ≠ 0 := by
    rintro rfl
    exact hsup.1 (by simp)
  rw [raiseIf_of_not hn]
  simp only [Except.ok_bind', Except.pure_eq']
  congr 1
  simp [Spec.averageTask, Spec.Fun.task, Spec.sumFun]

/-! ### Prio3 -/

theorem Spec.CustomInstance.wf {prims : Prims} {fuel : ℕ}
    {P : Prio3 (XofTurboShake128 prims fuel) F Meas Agg} {T : Spec.Task Meas Agg}
    (I : Spec.CustomInstance P T) : P.WF := by
  obtain ⟨pl, h1, h2, h3, h4⟩ := Prio3.init_ok.1 I.init
  refine ⟨I.id, h2, h3, I.shares, I.proofs, ?_, circuit_iff.1 I.computes.toCircuit, .turbo _ _ _⟩
  rw [h1]
  congr 1
  rw [h4]

theorem Spec.CustomInstance.of_init {prims : Prims} {fuel : ℕ}
    {id shares n : ℕ} {V : Valid F Meas Agg}
    {P : Prio3 (XofTurboShake128 prims fuel) F Meas Agg} {T : Spec.Task Meas Agg}
    (hP : Prio3.init id (XofTurboShake128 prims fuel) shares V n = .ok P)
    (hid : id < 2 ^ 32) (hn : n < 256) (hs : 256 ≤ PyField.modulus F) (hV : Spec.Computes V T) :
    Spec.CustomInstance P T ∧ P.flp = V ∧ P.shares = shares := by
  have hP' := hP
  obtain ⟨pl, h1, h2, h3, rfl⟩ := Prio3.init_ok.1 hP
  exact ⟨⟨hV, hP', hid, hn, lt_of_lt_of_le h3 hs⟩, rfl, rfl⟩

theorem customRun_any {X : Xof} {P : Prio3 X F Meas Agg} {T : Spec.Task Meas Agg} (W : P.WF) (C : Spec.Computes P.flp T)
    {E : Err → Prop} {vk ctx : Bytes} (hctx : ctx.length + 8 < 2 ^ 16) (hvk : vk.length = X.seedSize)
    {ms : List (Meas × Bytes × Bytes)} (hms : ∀ m ∈ ms, T.valid m.1) (hsup : T.supported (ms.map Prod.fst))
    (hrun : ∀ o : Meas → ℕ → F, RunFacts P.flp T.valid o → ∀ m ∈ ms,
      Good E (P.vdaf.runVerify vk () ctx m.1 m.2.1 m.2.2) fun r =>
        ∃ (os : ℕ → List F) (seed : Option Bytes), r = (tab P.shares fun j => (os j, seed), seed) ∧
          Spec.IsSum (fun j : Fin P.shares => os j) (tab P.flp.outputLen (o m.1))) :
    Good E (runVdaf P.vdaf vk () ctx ms) fun R => R = T.agg (ms.map Prod.fst) := by
  have hex : ∀ m, ∃ eo : List F × List F, T.valid m → P.flp.encode m = .ok eo.1 ∧ eo.1.length = P.flp.measLen ∧
      P.flp.truncate eo.1 = .ok eo.2 ∧ eo.2.length = P.flp.outputLen ∧
      ∀ jr : List F, jr.length = P.flp.jointRandLen → Spec.Accepts P.flp eo.1 jr := by
    intro m
    by_cases hm : T.valid m
    · obtain ⟨e, h1, h2, h3⟩ := C.encode m hm
      obtain ⟨-, o, h4, -, -, h5⟩ := C.truncate 1 (fun _ => e) e
        ⟨fun _ => rfl, fun j => by simp⟩ h2
      exact ⟨(e, o), fun _ => ⟨h1, h2, h4, h5, h3⟩⟩
    · exact ⟨([], []), fun h => absurd h hm⟩
  choose eo heo using hex
  have H : RunFacts P.flp T.valid fun m k => coef (eo m).2 k := by
    refine ⟨fun es e h hl => C.truncate _ es e h hl, fun m hm => ?_⟩
    obtain ⟨h1, h2, h3, h4, h5⟩ := heo m hm
    exact ⟨_, h1, h2, by rw [h3]; congr 1; exact eq_tab h4, h5⟩
  refine Prio3.runVdaf_any W hctx hvk (hrun _ H) ⟨_, ?_, rfl⟩
  have hval : ∀ i : Fin ms.length, T.valid (ms[i].1) := fun i => hms _ (List.getElem_mem _)
  have hof : List.ofFn (fun i : Fin ms.length => ms[i].1) = ms.map Prod.fst := by
    apply List.ext_getElem (by simp)
    intro i h1 h2
    simp
  have := C.decode ms.length (fun i => ms[i].1) (fun i => (eo ms[i].1).1) (fun i => (eo ms[i].1).2)
    (tab P.flp.outputLen fun k => (ms.map fun m => coef (eo m.1).2 k).sum) hval (by rw [hof]; exact hsup)
    (fun i => (heo _ (hval i)).1) (fun i => (heo _ (hval i)).2.2.1) ?_ (by simp)
  · rw [hof] at this
    exact this
  · refine ⟨fun i => by simpa using (heo _ (hval i)).2.2.2.1, fun j => ?_⟩
    show coef _ j = ∑ i, coef _ j
    rw [coef_tab]
    have hsum : (ms.map fun m => coef (eo m.1).2 j).sum = ∑ i : Fin ms.length, coef (eo ms[i].1).2 j := by
      rw [← List.sum_ofFn]
      congr 1
      apply List.ext_getElem (by simp)
      intro i h1 h2
      simp
    split
    · exact hsum
    · next h =>
      symm
      apply sum_eq_zero
      intro i _
      have := (heo _ (hval i)).2.2.2.1
      exact coef_of_le (by omega)

theorem customRun {prims : Prims} {fuel : ℕ} {P : Prio3 (XofTurboShake128 prims fuel) F Meas Agg}
    {T : Spec.Task Meas Agg} (I : Spec.CustomInstance P T) {vk ctx : Bytes}
    (hctx : ctx.length + 8 < 2 ^ 16) (hvk : vk.length = 32) {ms : List (Meas × Bytes × Bytes)}
    (hms : ∀ m ∈ ms, T.valid m.1 ∧ m.2.1.length = 16 ∧ m.2.2.length = P.randSize)
    (hsup : T.supported (ms.map Prod.fst)) :
    Good (Spec.HonestFailure P vk ctx (ms.map fun m => m.2.1)) (runVdaf P.vdaf vk () ctx ms) fun R =>
      R = T.agg (ms.map Prod.fst) := by
  exact customRun_any I.wf I.computes hctx hvk (fun m hm => (hms m hm).1) hsup fun o H =>
    Prio3.runVerify_honest I.wf hctx H hvk hms

theorem instance_higherDegree {prims : Prims} {fuel shares : ℕ}
    {P : Prio3 (XofTurboShake128 prims fuel) Field64 Int Nat}
    (h : Prio3HigherDegree prims fuel shares = .ok P) :
    Spec.CustomInstance P (Spec.higherDegreeTask Field64) ∧ P.shares = shares ∧ P.flp.jointRandLen = 0 := by
  obtain ⟨V, hV, hC⟩ := HigherDegree.computes (F := Field64) (by decide +kernel) (by decide +kernel)
  unfold Prio3HigherDegree at h
  rw [hV] at h
  obtain ⟨h1, h2, h3⟩ := Spec.CustomInstance.of_init h (by decide) (by decide) (by decide +kernel) hC
  refine ⟨h1, h3, ?_⟩
  rw [h2]
  unfold HigherDegree at hV
  rw [Except.bind_eq_ok] at hV
  obtain ⟨G, -, hV⟩ := hV
  cases hV; rfl

theorem instance_average {prims : Prims} {fuel shares max : ℕ} (hmax : 0 < max)
    {P : Prio3 (XofTurboShake128 prims fuel) Field128 Int Nat}
    (h : Prio3Average prims fuel shares max = .ok P) :
    Spec.CustomInstance P (Spec.averageTask Field128 max) ∧ P.shares = shares ∧ P.flp.jointRandLen = 0 := by
  unfold Prio3Average at h
  rw [Except.bind_eq_ok] at h
  obtain ⟨V, hV, h⟩ := h
  have hV' := hV
  unfold TestAverage at hV'
  rw [Except.bind_eq_ok] at hV'
  obtain ⟨W, hW, hV'⟩ := hV'
  cases hV'
  obtain ⟨hb, G, hG, rfl⟩ := Sum_ok hW
  have hb' : Nat.size max < 128 := by
    refine (Nat.pow_lt_pow_iff_right (by decide : 1 < 2)).1 (lt_trans hb ?_)
    decide +kernel
  have hfit : Spec.Fits (Sum.circuit Field128 max G) :=
    fits_degree2 (k := 7) rfl rfl (polyEval_deg hG).1 hb' (by decide)
  obtain ⟨h1, h2, h3⟩ := Spec.CustomInstance.of_init h (by decide) (by decide) (by decide +kernel)
    (TestAverage.computes hmax hV hfit)
  refine ⟨h1, h3, ?_⟩
  rw [h2]
  rfl

end Vdaf
