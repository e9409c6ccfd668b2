import Verif.Proofs.Fuel
import Verif.Model.Circuits
import Verif.Spec.Flp
import Verif.Model.TestCircuits

/-!
# Termination: the FLP

None of the computations of the FLP samples; the only `while` loops are those of `decode_vec` and of
`QueryGadget.__init__`.
-/

namespace Vdaf

theorem forFold_post {α β : Type} {l : List α} {b : β} {f : β → α → Res β} {Q : β → Prop} (h0 : Q b)
    (h : ∀ b a b', Q b → f b a = .ok b' → Q b') {r : β} (hr : forFold l b f = .ok r) : Q r := by
  induction l generalizing b with
  | nil => cases hr; exact h0
  | cons a t ih =>
    rw [forFold_cons, Except.bind_eq_ok] at hr
    obtain ⟨b', h1, h2⟩ := hr
    exact ih (h _ _ _ h0 h1) h2

theorem mem_of_getI {α : Type} {l : List α} {i : ℕ} {x : α} (h : getI l i = .ok x) : x ∈ l := by
  unfold getI at h
  split at h
  · next h' => cases h; exact List.mem_of_getElem? h'
  · cases h

section
variable {F : Type} [PyField F]

theorem NF.decodeVec (b : Bytes) : NF (decodeVec F b) :=
  ⟨fun h => by obtain ⟨m, hm⟩ := decodeVec_err h; cases hm⟩

theorem NF.polyStripLoop (p : List F) (i : ℕ) : NF (polyStripLoop p i) := by
  induction i with
  | zero => exact NF.ok _
  | succ i ih => unfold Vdaf.polyStripLoop; nf
theorem NF.polyStrip (p : List F) : NF (polyStrip p) := NF.polyStripLoop _ _
macro_rules | `(tactic| nf_step) => `(tactic| first | exact NF.decodeVec _ | exact NF.polyStrip _)
theorem NF.polyEval (p : List F) (x : F) : NF (polyEval p x) := by unfold Vdaf.polyEval; nf
theorem NF.polyMul (p q : List F) : NF (polyMul p q) := by unfold Vdaf.polyMul; nf
theorem NF.polyAdd (p q : List F) : NF (polyAdd p q) := by unfold Vdaf.polyAdd; nf
macro_rules | `(tactic| nf_step) => `(tactic| first
  | exact NF.polyEval _ _ | exact NF.polyMul _ _
  | exact NF.polyAdd _ _)
theorem NF.polyInterp (p q : List F) : NF (polyInterp p q) := by unfold Vdaf.polyInterp; nf
end

section
variable {F : Type} [NttField F]
theorem NF.nthRootPowers (n : ℕ) : NF (nthRootPowers F n) := by unfold Vdaf.nthRootPowers; nf
theorem NF.butterfly (w : F) (x y : ℕ) (q : List F) : NF (butterfly w x y q) := by unfold Vdaf.butterfly; nf
macro_rules | `(tactic| nf_step) => `(tactic| first | exact NF.nthRootPowers _ | exact NF.butterfly _ _ _ _)
theorem NF.nttLayer (n : ℕ) (s : Bool) (q : List F) (k : ℕ) : NF (nttLayer n s q k) := by
  unfold Vdaf.nttLayer; nf
macro_rules | `(tactic| nf_step) => `(tactic| exact NF.nttLayer _ _ _ _)
theorem NF.ntt (p : List F) (n : ℕ) (s : Bool) : NF (ntt p n s) := by unfold Vdaf.ntt; nf
macro_rules | `(tactic| nf_step) => `(tactic| exact NF.ntt _ _ _)
theorem NF.invNtt (p : List F) (n : ℕ) : NF (invNtt p n) := by unfold Vdaf.invNtt; nf
macro_rules | `(tactic| nf_step) => `(tactic| exact NF.invNtt _ _)
theorem NF.doubleEvaluations (p : List F) : NF (doubleEvaluations p) := by
  unfold Vdaf.doubleEvaluations; nf
macro_rules | `(tactic| nf_step) => `(tactic| exact NF.doubleEvaluations _)
theorem NF.lagPolyMul (p q : List F) : NF (lagPolyMul p q) := by unfold Vdaf.lagPolyMul; nf
theorem NF.polyEvalBatchedStep (p : List (List F)) (n : List F) (x : F) (st : F × List F × F) (i : ℕ) :
    NF (polyEvalBatchedStep p n x st i) := by unfold Vdaf.polyEvalBatchedStep; nf
macro_rules | `(tactic| nf_step) => `(tactic| first
  | exact NF.lagPolyMul _ _
  | exact NF.polyEvalBatchedStep _ _ _ _ _)
theorem NF.polyEvalBatched (p : List (List F)) (x : F) : NF (polyEvalBatched p x) := by
  unfold Vdaf.polyEvalBatched; nf
macro_rules | `(tactic| nf_step) => `(tactic| exact NF.polyEvalBatched _ _)
theorem NF.lagPolyEval (p : List F) (x : F) : NF (lagPolyEval p x) := by unfold Vdaf.lagPolyEval; nf
theorem NF.diffProd (x : List F) (i : ℕ) (js : List ℕ) : NF (diffProd x i js) := by
  unfold Vdaf.diffProd; nf
macro_rules | `(tactic| nf_step) => `(tactic| first | exact NF.lagPolyEval _ _ | exact NF.diffProd _ _ _)
theorem NF.extendStep (x : List F) (st : List F × List F) (k : ℕ) : NF (extendStep x st k) := by
  unfold Vdaf.extendStep; nf
macro_rules | `(tactic| nf_step) => `(tactic| exact NF.extendStep _ _ _)
theorem NF.extendValues (p : List F) (n : ℕ) : NF (extendValues p n) := by unfold Vdaf.extendValues; nf
macro_rules | `(tactic| nf_step) => `(tactic| exact NF.extendValues _ _)

/-! ### The loop of `QueryGadget.__init__` -/

theorem butterfly_length {w : F} {x y : ℕ} {q r : List F} (h : butterfly w x y q = .ok r) :
    r.length = q.length := by
  unfold butterfly at h
  simp only [Except.bind_eq_ok, setI_eq_ok] at h
  obtain ⟨_, _, _, _, _, ⟨_, rfl⟩, _, rfl⟩ := h
  simp

theorem nttLayer_length {n : ℕ} {s : Bool} {q r : List F} {k : ℕ} (h : nttLayer n s q k = .ok r) :
    r.length = q.length := by
  unfold nttLayer at h
  rw [Except.bind_eq_ok] at h
  obtain ⟨⟨r', w⟩, h1, h2⟩ := h
  cases h2
  refine forFold_post (Q := fun st : List F × F => st.1.length = q.length) rfl ?_ h1
  rintro ⟨a, _⟩ i ⟨b, _⟩ ha hb
  dsimp only at ha hb ⊢
  rw [Except.bind_eq_ok] at hb
  obtain ⟨c, hc, hb⟩ := hb
  cases hb
  exact forFold_post (Q := fun st : List F => st.length = q.length) ha
    (fun _ _ _ h1 h2 => (butterfly_length h2).trans h1) hc

theorem ntt_length {p r : List F} {n : ℕ} {s : Bool} (h : ntt p n s = .ok r) : r.length = n := by
  unfold ntt at h
  rw [Except.bind_eq_ok] at h
  obtain ⟨L, _, h⟩ := h
  rw [Except.bind_eq_ok] at h
  obtain ⟨q, hq, h⟩ := h
  have hl : q.length = n := by simpa using mapRes_length hq
  exact forFold_post (Q := fun st : List F => st.length = n) hl
    (fun _ _ _ h1 h2 => (nttLayer_length h2).trans h1) h

theorem doubleEvaluations_length {p r : List F} (h : doubleEvaluations p = .ok r) :
    r.length = 2 * p.length := by
  unfold doubleEvaluations at h
  simp only [Except.bind_eq_ok] at h
  obtain ⟨_, _, m, _, o, ho, h⟩ := h
  cases h
  have := ntt_length ho
  simp [this]
  omega

theorem extendValues_length {p r : List F} {n : ℕ} (h : extendValues p n = .ok r) :
    p.length ≤ r.length := by
  unfold extendValues at h
  simp only [Except.bind_eq_ok] at h
  obtain ⟨_, _, _, _, x, _, w, _, ⟨_, p'⟩, h, h'⟩ := h
  cases h'
  refine forFold_post (Q := fun st : List F × List F => p.length ≤ st.2.length) le_rfl ?_ h
  rintro ⟨a, b⟩ i ⟨a', b'⟩ ha hb
  unfold extendStep at hb
  simp only [Except.bind_eq_ok] at hb
  obtain ⟨_, _, _, _, ⟨_, _⟩, _, _, _, _, _, hb⟩ := hb
  cases hb
  dsimp only at ha ⊢
  simp
  omega

theorem NF.doubleUntil {size fuel : ℕ} {gp : List F} (h1 : 1 ≤ gp.length)
    (h2 : size ≤ gp.length + fuel) : NF (doubleUntil size fuel gp) := by
  induction fuel generalizing gp with
  | zero => rw [Vdaf.doubleUntil, if_neg (by omega)]; nf
  | succ fuel ih =>
    rw [Vdaf.doubleUntil]
    split
    · refine NF.bind (NF.doubleEvaluations _) fun q hq => ih ?_ ?_ <;>
        rw [doubleEvaluations_length hq] <;> omega
    · nf

theorem NF.wirePolyLen (n : ℕ) : NF (wirePolyLen n) := by unfold Vdaf.wirePolyLen; nf
theorem NF.initWires (p : ℕ) (s : List F) : NF (initWires p s) := by unfold Vdaf.initWires; nf
macro_rules | `(tactic| nf_step) => `(tactic| first | exact NF.wirePolyLen _ | exact NF.initWires _ _)

theorem NF.queryInit (s p : List F) (g : Gadget F) (n : ℕ) : NF (QueryGadget.init s p g n) := by
  unfold QueryGadget.init
  nf_step
  · nf
  nf_step
  nf_step
  · nf
  nf_step
  nf_step
  · nf
  nf_step
  nf_step
  · nf
  nf_step
  refine NF.bind (NF.nextPowerOf2 _) fun m hm => ?_
  refine NF.bind (NF.extendValues _ _) fun q hq => ?_
  nf_step
  · nf
  nf_step
  refine NF.bind' (NF.doubleUntil ?_ (by omega)) ?_
  · refine le_trans ?_ (extendValues_length hq)
    unfold Vdaf.nextPowerOf2 at hm
    split at hm
    · assumption
    · cases hm
  · nf

omit [NttField F] in
theorem NF.recordWires (w : List (List F)) (k : ℕ) (i : List F) : NF (recordWires w k i) := by
  unfold Vdaf.recordWires; nf
theorem NF.proveInit (s : List F) (g : Gadget F) (n : ℕ) : NF (ProveGadget.init s g n) := by
  unfold ProveGadget.init; nf
macro_rules | `(tactic| nf_step) => `(tactic| first
  | exact NF.queryInit _ _ _ _
  | exact NF.recordWires _ _ _ | exact NF.proveInit _ _ _)

/-! ### Circuits -/

/-- The program never raises the mark of a loop that was cut off. -/
def Prog.NoFuel {α : Type} : Prog F α → Prop
  | .pure _ => True
  | .raise e => e ≠ .fuel
  | .call _ _ k => ∀ y, (k y).NoFuel

section
omit [NttField F]
variable {α β : Type}

theorem Prog.NoFuel.bind {p : Prog F α} {k : α → Prog F β} (hp : p.NoFuel) (hk : ∀ a, (k a).NoFuel) :
    (p >>= k).NoFuel := by
  show (Prog.bind p k).NoFuel
  induction p with
  | pure a => exact hk a
  | raise e => exact hp
  | call g i c ih => exact fun y => ih y (hp y)

theorem Prog.NoFuel.ofRes {r : Res α} (h : NF r) : (Prog.ofRes r : Prog F α).NoFuel := by
  cases r with
  | ok a => trivial
  | error e => exact fun he => h.ne (by rw [he])

theorem Prog.NoFuel.pure (a : α) : (Pure.pure a : Prog F α).NoFuel := trivial
theorem Prog.NoFuel.call (g : ℕ) (i : List F) : (Prog.call g i .pure).NoFuel := fun _ => trivial

theorem Prog.NoFuel.forFold {l : List β} {a : α} {k : α → β → Prog F α} (h : ∀ a b, (k a b).NoFuel) :
    (Prog.forFold l a k).NoFuel := by
  induction l generalizing a with
  | nil => trivial
  | cons b t ih => exact Prog.NoFuel.bind (h a b) fun a => ih

theorem Prog.NoFuel.run {p : Prog F α} (hp : p.NoFuel) {σ : Type} (I : σ → Prop)
    {h : σ → ℕ → List F → Res (F × σ)}
    (hh : ∀ s g i, I s → NF (h s g i) ∧ ∀ r, h s g i = .ok r → I r.2) (s : σ) (hs : I s) :
    NF (p.run h s) ∧ ∀ r, p.run h s = .ok r → I r.2 := by
  induction p generalizing s with
  | pure a => exact ⟨NF.ok _, fun r hr => by cases hr; exact hs⟩
  | raise e => exact ⟨NF.error hp, fun r hr => by cases hr⟩
  | call g i k ih =>
    obtain ⟨h1, h2⟩ := hh s g i hs
    unfold Prog.run
    split
    · next e he => exact ⟨⟨fun h' => by cases h'; exact h1.ne he⟩, fun r hr => by cases hr⟩
    · next y s' he => exact ih y (hp y) s' (h2 _ he)

end

/-- A gadget that is not cut off. -/
structure Gadget.NoFuel (g : Gadget F) : Prop where
  eval : ∀ i, NF (g.eval i)
  evalPoly : ∀ i, NF (g.evalPoly i)

/-- A circuit none of whose parts is cut off. -/
structure Valid.NoFuel {Meas Agg : Type} (V : Valid F Meas Agg) : Prop where
  gadget : ∀ g ∈ V.gadgets, g.NoFuel
  encode : ∀ m, NF (V.encode m)
  truncate : ∀ m, NF (V.truncate m)
  decode : ∀ o n, NF (V.decode o n)
  eval : ∀ m j n, (V.eval m j n).NoFuel

section
variable {Meas Agg : Type} {V : Valid F Meas Agg}

omit [NttField F] in
theorem NF.proofLen (V : Valid F Meas Agg) : NF V.proofLen := by unfold Valid.proofLen; nf
macro_rules | `(tactic| nf_step) => `(tactic| exact NF.proofLen _)

theorem proveWrap_inner {r : List F} {w : List (ProveGadget F)} (hV : V.NoFuel)
    (h : ProveGadget.wrap V r = .ok w) : ∀ s ∈ w, s.inner.NoFuel := by
  unfold ProveGadget.wrap at h
  simp only [Except.bind_eq_ok] at h
  obtain ⟨_, _, ⟨w', r'⟩, h1, _, _, h2⟩ := h
  cases h2
  have key : ∀ (l : List (Gadget F × ℕ)) (_ : ∀ x ∈ l, x.1.NoFuel) (st : List (ProveGadget F) × List F)
      (_ : ∀ s ∈ st.1, s.inner.NoFuel) (st' : List (ProveGadget F) × List F),
      forFold l st (fun (wrapped, proveRand) (g, gCalls) => do
        let (wireSeeds, proveRand) ← front g.arity proveRand
        let w ← ProveGadget.init wireSeeds g gCalls
        return (wrapped ++ [w], proveRand)) = .ok st' → ∀ s ∈ st'.1, s.inner.NoFuel := by
    intro l
    induction l with
    | nil => intro _ st h st' h'; cases h'; exact h
    | cons x t ih =>
      intro hl st h st' h'
      rw [forFold_cons, Except.bind_eq_ok] at h'
      obtain ⟨st1, h2, h3⟩ := h'
      refine ih (fun y hy => hl y (List.mem_cons_of_mem _ hy)) st1 ?_ st' h3
      obtain ⟨g, n⟩ := x
      obtain ⟨a, b⟩ := st
      simp only [Except.bind_eq_ok] at h2
      obtain ⟨⟨ws, pr⟩, _, v, hv, h2⟩ := h2
      cases h2
      intro s hs
      rcases List.mem_append.1 hs with hs | hs
      · exact h s hs
      · obtain rfl := List.mem_singleton.1 hs
        unfold ProveGadget.init at hv
        simp only [Except.bind_eq_ok] at hv
        obtain ⟨_, _, _, _, _, _, hv⟩ := hv
        cases hv
        exact hl _ (List.mem_cons_self ..)
  exact key _ (fun x hx => hV.gadget _ (List.of_mem_zip hx).1) _ (by simp) _ h1

omit [NttField F] in
theorem proveHandler_nf (s : List (ProveGadget F)) (g : ℕ) (i : List F) (hs : ∀ x ∈ s, x.inner.NoFuel) :
    NF (ProveGadget.handler s g i) ∧
      ∀ r, ProveGadget.handler s g i = .ok r → ∀ x ∈ r.2, x.inner.NoFuel := by
  constructor
  · unfold ProveGadget.handler
    refine NF.bind (NF.getI _ _) fun x hx => ?_
    have hx' := hs x (mem_of_getI hx)
    have : NF (x.eval i) := by
      unfold ProveGadget.eval
      have := hx'.eval i
      nf
    nf
  · rintro r hr x hx
    unfold ProveGadget.handler at hr
    simp only [Except.bind_eq_ok, setI_eq_ok] at hr
    obtain ⟨y, hy, ⟨z, y'⟩, hz, st, ⟨_, rfl⟩, hr⟩ := hr
    cases hr
    have hy' := hs y (mem_of_getI hy)
    rcases List.mem_or_eq_of_mem_set hx with h | rfl
    · exact hs x h
    · unfold ProveGadget.eval at hz
      simp only [Except.bind_eq_ok] at hz
      obtain ⟨_, _, _, _, hz⟩ := hz
      cases hz
      exact hy'

omit [NttField F] in
theorem NF.queryHandler (s : List (QueryGadget F)) (g : ℕ) (i : List F) :
    NF (QueryGadget.handler s g i) := by
  unfold QueryGadget.handler QueryGadget.eval; nf

theorem NF.prove (hV : V.NoFuel) (m p j : List F) : NF (V.prove m p j) := by
  unfold Valid.prove
  refine NF.bind' (NF.pyAssert _ _) fun _ => NF.bind' (NF.pyAssert _ _) fun _ =>
    NF.bind' (NF.pyAssert _ _) fun _ => NF.bind (by unfold ProveGadget.wrap; nf) fun w hw => ?_
  have hr := (hV.eval m j 1).run (fun s : List (ProveGadget F) => ∀ x ∈ s, x.inner.NoFuel)
    (h := ProveGadget.handler) proveHandler_nf w (proveWrap_inner hV hw)
  refine NF.bind hr.1 ?_
  rintro ⟨o, w'⟩ hw'
  have hi := hr.2 _ hw'
  dsimp only at hi ⊢
  refine NF.bind' ?_ fun _ => by nf
  generalize ([] : List F) = init
  have hz : ∀ x ∈ List.zip w' V.gadgetCalls, x.1.inner.NoFuel := fun x hx => hi _ (List.of_mem_zip hx).1
  generalize List.zip w' V.gadgetCalls = l at hz
  induction l generalizing init with
  | nil => exact NF.ok _
  | cons x t ih =>
    rw [forFold_cons]
    refine NF.bind' ?_ fun b => ih b fun y hy => hz y (List.mem_cons_of_mem _ hy)
    obtain ⟨g, n⟩ := x
    have := (hz _ (List.mem_cons_self ..)).evalPoly
    dsimp only at this ⊢
    repeat' (first | exact this _ | nf_step)

theorem NF.queryStep (v : List F) (g : QueryGadget F) (t : F) : NF (queryStep v g t) := by
  unfold Vdaf.queryStep rootOfUnityErr; nf
theorem NF.queryReduce (n : ℕ) (o q : List F) : NF (queryReduce n o q) := by
  unfold Vdaf.queryReduce; nf

theorem NF.query (hV : V.NoFuel) (m p q j : List F) (n : ℕ) : NF (V.query m p q j n) := by
  unfold Valid.query QueryGadget.wrap
  have hr := fun w => ((hV.eval m j n).run (fun _ : List (QueryGadget F) => True)
    (h := QueryGadget.handler) (fun s g i _ => ⟨NF.queryHandler s g i, fun _ _ => trivial⟩) w trivial).1
  repeat' (first | exact hr _ | exact NF.queryStep _ _ _ | exact NF.queryReduce _ _ _ | nf_step)

theorem NF.decideLoop (l : List (Gadget F)) (h : ∀ g ∈ l, g.NoFuel) (v : List F) :
    NF (decideLoop l v) := by
  induction l generalizing v with
  | nil => unfold Vdaf.decideLoop; nf
  | cons g t ih =>
    unfold Vdaf.decideLoop
    have h1 := (h g (List.mem_cons_self ..)).eval
    have h2 := fun v => ih (fun y hy => h y (List.mem_cons_of_mem _ hy)) v
    repeat' (first | exact h1 _ | exact h2 _ | nf_step)

theorem NF.decide (hV : V.NoFuel) (v : List F) : NF (V.decide v) := by
  unfold Valid.decide
  have h := NF.decideLoop _ hV.gadget
  repeat' (first | exact h _ | nf_step)

end

/-! ### The circuits of the library -/

omit [NttField F] in
theorem NF.checkEval (n : ℕ) (i : List F) : NF (Gadget.checkEval n i) := by
  unfold Gadget.checkEval; nf
omit [NttField F] in
theorem NF.checkEvalPoly (n : ℕ) (i : List (List F)) : NF (Gadget.checkEvalPoly n i) := by
  unfold Gadget.checkEvalPoly; nf
omit [NttField F] in
theorem NF.checkValidEval (a b : ℕ) (m j : List F) : NF (checkValidEval a b m j) := by
  unfold Vdaf.checkValidEval; nf
macro_rules | `(tactic| nf_step) => `(tactic| first
  | exact NF.checkEval _ _
  | exact NF.checkEvalPoly _ _
  | exact NF.checkValidEval _ _ _ _)

theorem Mul_nf : (Mul F).NoFuel := ⟨fun i => by unfold Mul; dsimp only; nf, fun i => by unfold Mul; dsimp only; nf⟩

theorem PolyEval_nf {p : List ℤ} {n : ℕ} {g : Gadget F} (h : PolyEval F p n = .ok g) : g.NoFuel := by
  unfold PolyEval at h
  simp only [Except.bind_eq_ok] at h
  obtain ⟨_, _, _, _, _, _, _, _, h⟩ := h
  cases h
  exact ⟨fun i => by dsimp only; nf, fun i => by dsimp only; nf⟩

theorem ParallelSum_nf {g : Gadget F} (h : g.NoFuel) (n : ℕ) : (ParallelSum g n).NoFuel := by
  have h1 := h.eval
  have h2 := h.evalPoly
  constructor <;> intro i <;> unfold ParallelSum <;> dsimp only <;>
    repeat' (first | exact h1 _ | exact h2 _ | nf_step)

theorem NF.encodeRangeCheckedInt (v : ℤ) (m : ℕ) : NF (encodeRangeCheckedInt F v m) := by
  unfold Vdaf.encodeRangeCheckedInt; nf
theorem NF.decodeRangeCheckedInt (v : List F) (m : ℕ) : NF (decodeRangeCheckedInt v m) := by
  unfold Vdaf.decodeRangeCheckedInt; nf
theorem NF.setPy {α : Type} (l : List α) (i : ℤ) (x : α) : NF (setPy l i x) := by
  unfold Vdaf.setPy; nf
theorem NF.chunkStep (m : List F) (s r : F) (c i : ℕ) (st : List F × F) (j : ℕ) :
    NF (chunkStep m s r c i st j) := by
  unfold Vdaf.chunkStep padGet; nf
macro_rules | `(tactic| nf_step) => `(tactic| first
  | exact NF.encodeRangeCheckedInt _ _
  | exact NF.decodeRangeCheckedInt _ _
  | exact NF.setPy _ _ _
  | exact NF.chunkStep _ _ _ _ _ _ _)

/-- one step of a proof that a program does not raise the mark -/
syntax "pn" : tactic
macro_rules | `(tactic| pn) => `(tactic| repeat' (first
  | intro _
  | exact Prog.NoFuel.pure _
  | exact Prog.NoFuel.call _ _
  | (refine Prog.NoFuel.ofRes ?_; nf; done)
  | refine Prog.NoFuel.forFold ?_
  | refine Prog.NoFuel.bind ?_ ?_
  | split))

theorem chunkLoop_nf (m j : List F) (s : F) (c n : ℕ) : (chunkLoop m j s c n).NoFuel := by
  unfold chunkLoop; pn
macro_rules | `(tactic| pn) => `(tactic| repeat' (first
  | intro _
  | exact chunkLoop_nf _ _ _ _ _
  | exact Prog.NoFuel.pure _
  | exact Prog.NoFuel.call _ _
  | refine Prog.NoFuel.forFold ?_
  | (refine Prog.NoFuel.ofRes ?_; nf; done)
  | refine Prog.NoFuel.bind ?_ ?_))

theorem Library_nf {Meas Agg : Type} {V : Valid F Meas Agg} {f : Spec.Fun Meas Agg}
    (h : Spec.Library F V f) : V.NoFuel := by
  cases h with
  | count =>
    refine ⟨by simpa [Count] using Mul_nf, ?_, ?_, ?_, ?_⟩ <;> intros <;> unfold Count <;> dsimp only
    · nf
    · nf
    · nf
    · pn
  | sum h0 h =>
    unfold Sum at h
    simp only [Except.bind_eq_ok] at h
    obtain ⟨_, _, g, hg, h⟩ := h
    cases h
    refine ⟨by simpa [Sum.circuit] using PolyEval_nf hg, ?_, ?_, ?_, ?_⟩ <;> intros <;>
      unfold Sum.circuit <;> dsimp only
    · nf
    · nf
    · nf
    · pn
  | sumVec h =>
    unfold SumVec at h
    simp only [Except.bind_eq_ok] at h
    obtain ⟨_, _, _, _, _, _, _, _, h⟩ := h
    cases h
    refine ⟨by simpa [SumVec.circuit] using ParallelSum_nf Mul_nf _, ?_, ?_, ?_, ?_⟩ <;> intros <;>
      unfold SumVec.circuit <;> dsimp only
    · nf
    · nf
    · nf
    · pn
  | histogram h0 h =>
    unfold Histogram at h
    simp only [Except.bind_eq_ok] at h
    obtain ⟨_, _, _, _, h⟩ := h
    cases h
    refine ⟨by simpa [Histogram.circuit] using ParallelSum_nf Mul_nf _, ?_, ?_, ?_, ?_⟩ <;> intros <;>
      unfold Histogram.circuit <;> dsimp only
    · nf
    · nf
    · nf
    · pn
  | multihot h =>
    unfold MultihotCountVec at h
    simp only [Except.bind_eq_ok] at h
    obtain ⟨_, _, _, _, _, _, _, _, _, _, h⟩ := h
    cases h
    refine ⟨by simpa [MultihotCountVec.circuit] using ParallelSum_nf Mul_nf _, ?_, ?_, ?_, ?_⟩ <;> intros <;>
      unfold MultihotCountVec.circuit <;> dsimp only
    · nf
    · nf
    · nf
    · pn

end
end Vdaf
