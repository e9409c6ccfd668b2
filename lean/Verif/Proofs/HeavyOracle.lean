import Verif.Spec.HeavyOracle
import Verif.Proofs.HeavyOnce
import Verif.Props.Poplar1Game

/-! # The heavy hitters protocol in the random oracle model: proofs -/

set_option linter.unusedSectionVars false

namespace Vdaf.Poplar1
open Spec (tag withOracle Poplar1Move Poplar1Reply Poplar1Strategy EncodedReport poplar1Run poplar1Respond previousParams
  poplar1Outputs verifyRandInput verifyRandInputs allVerifyRandInputs oracles BatchChooser poplar1Decode poplar1Received
  poplar1Counts heavyLoop heavyPrefixes)
variable {P : Poplar1} {prims : Prims} {fuel : ℕ} {O O' : Bytes → ℕ → UInt8}

theorem allInputs_finite (ctx : Bytes) : (allVerifyRandInputs ctx).Finite := by
  have : allVerifyRandInputs ctx = ⋃ k ∈ {b : Bytes | b.length = 32}, verifyRandInputs k ctx := by
    ext m
    simp [Spec.allVerifyRandInputs]
  rw [this]
  exact Set.Finite.biUnion (List.finite_length_eq UInt8 32) fun k _ => verifyRandInputs_finite _ _

theorem oracles_same {ctx : Bytes} (hctx : ctx.length + 8 < 2 ^ 16) {N : ℕ} (h : O ∈ oracles prims (allVerifyRandInputs ctx) N)
    (h' : O' ∈ oracles prims (allVerifyRandInputs ctx) N) : SameElsewhere ctx O O' := by
  intro s d b hs hd hne
  have key : turboInput s d b ∉ allVerifyRandInputs ctx := by
    rintro ⟨vk, hvk, hm⟩
    obtain ⟨x, hx⟩ := mem_posAt hm
    exact turbo_ne_posAt hctx hvk hs hd hne x hx
  funext i
  have h1 : O (turboInput s d b) i = prims.turboShake (turboInput s d b) 1 i := by
    by_contra hc
    exact key (h _ _ hc).1
  have h2 : O' (turboInput s d b) i = prims.turboShake (turboInput s d b) 1 i := by
    by_contra hc
    exact key (h' _ _ hc).1
  rw [h1, h2]

/-! ### What verification returns, if it succeeds, does not depend on the verification randomness. -/

theorem outputs_decode (vk ctx : Bytes) (e : EncodedReport) (a : Poplar1AggParam) :
    poplar1Outputs P prims fuel vk ctx e a = (do
      let r ← poplar1Decode P prims fuel e
      Spec.poplar1Verify P prims fuel vk ctx a r.nonce r.pub r.share0 r.share1) := by
  unfold Spec.poplar1Outputs Spec.poplar1Decode
  simp only [bind_assoc, pure_bind]

theorem outputs_unique {vk vk' ctx : Bytes} {e : EncodedReport} {a : Poplar1AggParam} {o o' : FieldVec × FieldVec}
    (H : SameElsewhere ctx O O') (h : poplar1Outputs P (withOracle prims O) fuel vk ctx e a = .ok o)
    (h' : poplar1Outputs P (withOracle prims O') fuel vk' ctx e a = .ok o') : o = o' := by
  rw [outputs_decode] at h h'
  obtain ⟨r, h1, h⟩ := Except.bind_eq_ok.1 h
  obtain ⟨r', h1', h'⟩ := Except.bind_eq_ok.1 h'
  have : r = r' := Except.ok.inj (h1.symm.trans h1')
  subst this
  obtain ⟨level, prefixes⟩ := a
  obtain ⟨o0, o1⟩ := o
  obtain ⟨o0', o1'⟩ := o'
  obtain ⟨v0, v1, _, _, _, _, _, _, r1, F, hr, rfl, rfl, -⟩ := succeeds_iff (verify_succeeds h)
  obtain ⟨w0, w1, _, _, _, _, _, _, r2, G, hr', rfl, rfl, -⟩ := succeeds_iff (verify_succeeds h')
  have e0 := G.eval0
  have e1 := G.eval1
  rw [eval_congr H] at e0 e1
  have e0 := Except.ok.inj (F.eval0.symm.trans e0)
  have e1 := Except.ok.inj (F.eval1.symm.trans e1)
  subst e0 e1
  rw [verifyRand_length hr, verifyRand_length hr']

/-- The verdict -/
def accepted (P : Poplar1) (prims : Prims) (fuel : ℕ) (vk ctx : Bytes) (e : EncodedReport) (a : Poplar1AggParam) : Bool :=
  match poplar1Outputs P prims fuel vk ctx e a with
  | .ok _ => true
  | .error _ => false

theorem accepted_iff {vk ctx : Bytes} {e : EncodedReport} {a : Poplar1AggParam} :
    accepted P prims fuel vk ctx e a = true ↔ ∃ o, poplar1Outputs P prims fuel vk ctx e a = .ok o := by
  unfold accepted
  rcases poplar1Outputs P prims fuel vk ctx e a with err | o <;> simp

theorem outputs_option {vk vk' ctx : Bytes} {e : EncodedReport} {a : Poplar1AggParam} (H : SameElsewhere ctx O O')
    (h : accepted P (withOracle prims O) fuel vk ctx e a = accepted P (withOracle prims O') fuel vk' ctx e a) :
    (poplar1Outputs P (withOracle prims O) fuel vk ctx e a).toOption =
      (poplar1Outputs P (withOracle prims O') fuel vk' ctx e a).toOption := by
  unfold accepted at h
  rcases h1 : poplar1Outputs P (withOracle prims O) fuel vk ctx e a with err | o <;>
    rcases h2 : poplar1Outputs P (withOracle prims O') fuel vk' ctx e a with err' | o' <;> rw [h1, h2] at h
  · rfl
  · cases h
  · cases h
  · rw [outputs_unique H h1 h2]

/-- The counts, from the output shares of the reports -/
theorem counts_received (vk ctx : Bytes) (batch : List EncodedReport) (a : Poplar1AggParam) :
    poplar1Counts P prims fuel vk ctx (poplar1Received P prims fuel batch) a = (do
      let outs := batch.filterMap fun e => (poplar1Outputs P prims fuel vk ctx e a).toOption
      let agg0 ← P.merge a (outs.map Prod.fst)
      let agg1 ← P.merge a (outs.map Prod.snd)
      P.unshard a [agg0, agg1] outs.length) := by
  have : (poplar1Received P prims fuel batch).filterMap (fun r =>
      (Spec.poplar1Verify P prims fuel vk ctx a r.nonce r.pub r.share0 r.share1).toOption) =
      batch.filterMap fun e => (poplar1Outputs P prims fuel vk ctx e a).toOption := by
    unfold Spec.poplar1Received
    rw [List.filterMap_filterMap]
    refine List.filterMap_congr fun e _ => ?_
    rw [outputs_decode]
    cases poplar1Decode P prims fuel e <;> rfl
  unfold Spec.poplar1Counts
  rw [this]
  rfl

theorem counts_congr {vk vk' ctx : Bytes} {batch : List EncodedReport} {a : Poplar1AggParam} (H : SameElsewhere ctx O O')
    (h : ∀ e ∈ batch, accepted P (withOracle prims O) fuel vk ctx e a = accepted P (withOracle prims O') fuel vk' ctx e a) :
    poplar1Counts P (withOracle prims O) fuel vk ctx (poplar1Received P (withOracle prims O) fuel batch) a =
      poplar1Counts P (withOracle prims O') fuel vk' ctx (poplar1Received P (withOracle prims O') fuel batch) a := by
  rw [counts_received, counts_received, List.filterMap_congr fun e he => outputs_option H (h e he)]

/-! ### The aggregation parameters -/

/-- The prefixes of each level -/
def levelPrefixes (count : Poplar1AggParam → Res (List ℕ)) (T : ℕ) : ℕ → List (List Bool)
  | 0 => [[false], [true]]
  | l + 1 => match count (l, levelPrefixes count T l) with
    | .ok cs => (heavyPrefixes T (levelPrefixes count T l) cs).flatMap fun p => [p ++ [false], p ++ [true]]
    | .error _ => []

/-- The aggregation parameter of each level -/
def levelParam (count : Poplar1AggParam → Res (List ℕ)) (T l : ℕ) : Poplar1AggParam := (l, levelPrefixes count T l)

theorem loop_params {count : Poplar1AggParam → Res (List ℕ)} {T : ℕ} {hh : List (List Bool)} : ∀ (n level : ℕ)
    {hist' : List Poplar1AggParam},
    heavyLoop isValid count T n level ((List.range level).map (levelParam count T)) (levelPrefixes count T level) =
      .ok (hist', hh) →
    hist' = (List.range (level + n + 1)).map (levelParam count T) ∧
      ∀ l, level ≤ l → l ≤ level + n → isValid (levelParam count T l) ((List.range l).map (levelParam count T)) = .ok true := by
  intro n
  induction n with
  | zero =>
    intro level hist' h
    unfold Spec.heavyLoop at h
    obtain ⟨v, hv, k1⟩ := Except.bind_eq_ok.1 h
    obtain ⟨_, hr, k2⟩ := Except.bind_eq_ok.1 k1
    obtain ⟨cs, hc, k3⟩ := Except.bind_eq_ok.1 k2
    clear h k1 k2
    obtain ⟨rfl, -⟩ := Prod.mk.inj (Except.ok.inj k3)
    have hv' : v = true := by
      cases v
      · cases hr
      · rfl
    subst hv'
    refine ⟨by simp [List.range_succ, levelParam], fun l h1 h2 => ?_⟩
    obtain rfl : l = level := by omega
    exact hv
  | succ n ih =>
    intro level hist' h
    unfold Spec.heavyLoop at h
    obtain ⟨v, hv, k1⟩ := Except.bind_eq_ok.1 h
    obtain ⟨_, hr, k2⟩ := Except.bind_eq_ok.1 k1
    obtain ⟨cs, hc, k3⟩ := Except.bind_eq_ok.1 k2
    clear h k1 k2
    have hv' : v = true := by
      cases v
      · cases hr
      · rfl
    subst hv'
    have e1 : (List.range level).map (levelParam count T) ++ [(level, levelPrefixes count T level)] =
        (List.range (level + 1)).map (levelParam count T) := by simp [List.range_succ, levelParam]
    have e2 : ((heavyPrefixes T (levelPrefixes count T level) cs).flatMap fun p => [p ++ [false], p ++ [true]]) =
        levelPrefixes count T (level + 1) := by
      rw [levelPrefixes, hc]
    dsimp only at k3
    rw [e1, e2] at k3
    obtain ⟨h1, h2⟩ := ih (level + 1) k3
    refine ⟨by rw [h1]; congr 2; omega, fun l h3 h4 => ?_⟩
    by_cases hl : l = level
    · subst hl
      exact hv
    · exact h2 l (by omega) (by omega)

theorem heavy_params {count : Poplar1AggParam → Res (List ℕ)} {T bits : ℕ} (hb : 0 < bits) {hist : List Poplar1AggParam}
    {hh : List (List Bool)} (h : Spec.heavyHitters bits isValid count T = .ok (hist, hh)) :
    hist = (List.range bits).map (levelParam count T) ∧
      ∀ l < bits, isValid (levelParam count T l) ((List.range l).map (levelParam count T)) = .ok true := by
  obtain ⟨h1, h2⟩ := loop_params (bits - 1) 0 (hist' := hist) h
  refine ⟨by rw [h1]; congr 2; omega, fun l hl => h2 l (by omega) (by omega)⟩

/-! ### The moves of the game: first the evaluations of the oracle, and then all the reports of each level -/

section
variable (P prims fuel)
variable (ctx : Bytes) (T : ℕ) (A : BatchChooser) (q : ℕ)

/-- The batch -/
def theBatch (O : Bytes → ℕ → UInt8) : List EncodedReport := A.batch (A.answers O q)

/-- The counts of the batch -/
def theCounts (vk : Bytes) (O : Bytes → ℕ → UInt8) : Poplar1AggParam → Res (List ℕ) :=
  poplar1Counts P (withOracle prims O) fuel vk ctx (poplar1Received P (withOracle prims O) fuel (theBatch A q O))

/-- The aggregation parameters -/
def theParam (vk : Bytes) (O : Bytes → ℕ → UInt8) (l : ℕ) : Poplar1AggParam := levelParam (theCounts P prims fuel ctx A q vk O) T l

/-- The move after `t` moves -/
def realMove (vk : Bytes) (O : Bytes → ℕ → UInt8) (t : ℕ) : Poplar1Move :=
  if t < q then .query (A.ask (A.answers O t))
  else match (theBatch A q O)[(t - q) % (theBatch A q O).length]? with
    | some e => .submit e (theParam P prims fuel ctx T A q vk O ((t - q) / (theBatch A q O).length))
    | none => .query []

/-- The reply to it -/
def realReply (vk : Bytes) (O : Bytes → ℕ → UInt8) (t : ℕ) : Poplar1Reply :=
  match realMove P prims fuel ctx T A q vk O t with
  | .query m => .output (O m)
  | .submit e a => .verdict (accepted P (withOracle prims O) fuel vk ctx e a)

/-- The strategy that makes these moves -/
noncomputable def heavyStrategy (N : ℕ) : Poplar1Strategy := by
  classical
  exact fun replies =>
    if h : ∃ x : Bytes × (Bytes → ℕ → UInt8), x.2 ∈ oracles prims (allVerifyRandInputs ctx) N ∧
        replies = (List.range replies.length).map (realReply P prims fuel ctx T A q x.1 x.2) then
      realMove P prims fuel ctx T A q h.choose.1 h.choose.2 replies.length
    else .query []

end

section
variable {ctx : Bytes} {T : ℕ} {A : BatchChooser} {q : ℕ} {vk vk' : Bytes}

theorem realMove_submit {O : Bytes → ℕ → UInt8} {l i : ℕ} (hi : i < (theBatch A q O).length) :
    realMove P prims fuel ctx T A q vk O (q + (l * (theBatch A q O).length + i)) =
      .submit (theBatch A q O)[i] (theParam P prims fuel ctx T A q vk O l) := by
  unfold realMove
  rw [if_neg (by omega), Nat.add_sub_cancel_left, mul_comm, Nat.mul_add_mod, Nat.mod_eq_of_lt hi,
    Nat.mul_add_div (by omega), Nat.div_eq_of_lt hi, add_zero, List.getElem?_eq_getElem hi]

theorem realReply_submit {O : Bytes → ℕ → UInt8} {l i : ℕ} (hi : i < (theBatch A q O).length) :
    realReply P prims fuel ctx T A q vk O (q + (l * (theBatch A q O).length + i)) =
      .verdict (accepted P (withOracle prims O) fuel vk ctx (theBatch A q O)[i] (theParam P prims fuel ctx T A q vk O l)) := by
  unfold realReply
  rw [realMove_submit hi]

theorem answers_agree {t : ℕ} (h : ∀ k < t, realReply P prims fuel ctx T A q vk O k = realReply P prims fuel ctx T A q vk' O' k) :
    ∀ k ≤ t, k ≤ q → A.answers O k = A.answers O' k := by
  intro k
  induction k with
  | zero => intro _ _; rfl
  | succ k ih =>
    intro h1 h2
    have e := ih (by omega) (by omega)
    have := h k (by omega)
    unfold realReply realMove at this
    rw [if_pos (by omega), if_pos (by omega)] at this
    have := Poplar1Reply.output.inj this
    rw [BatchChooser.answers, BatchChooser.answers, this, e]

/-- The moves depend on the previous replies only. -/
theorem move_agree (H : SameElsewhere ctx O O') {t : ℕ}
    (h : ∀ k < t, realReply P prims fuel ctx T A q vk O k = realReply P prims fuel ctx T A q vk' O' k) :
    realMove P prims fuel ctx T A q vk O t = realMove P prims fuel ctx T A q vk' O' t := by
  by_cases ht : t < q
  · unfold realMove
    rw [if_pos ht, if_pos ht, answers_agree h t le_rfl ht.le]
  · have hb : theBatch A q O = theBatch A q O' := by
      unfold theBatch
      rw [answers_agree h q (by omega) le_rfl]
    obtain ⟨L, hL⟩ : ∃ L, L = (theBatch A q O).length := ⟨_, rfl⟩
    have hp : ∀ l, l ≤ (t - q) / L → theParam P prims fuel ctx T A q vk O l = theParam P prims fuel ctx T A q vk' O' l := by
      intro l
      induction l with
      | zero =>
        intro _
        unfold theParam levelParam
        rw [levelPrefixes, levelPrefixes]
      | succ l ih =>
        intro hl
        have e := ih (by omega)
        have e' : levelPrefixes (theCounts P prims fuel ctx A q vk O) T l =
          levelPrefixes (theCounts P prims fuel ctx A q vk' O') T l := congrArg Prod.snd e
        have hc : theCounts P prims fuel ctx A q vk O (theParam P prims fuel ctx T A q vk O l) =
            theCounts P prims fuel ctx A q vk' O' (theParam P prims fuel ctx T A q vk O l) := by
          unfold theCounts
          rw [← hb]
          refine counts_congr H fun x hx => ?_
          obtain ⟨i, hi, rfl⟩ := List.getElem_of_mem hx
          have hlt : l * L + i < t - q := by
            have h1 : (l + 1) * L ≤ t - q := (Nat.mul_le_mul_right _ hl).trans (Nat.div_mul_le_self _ _)
            have h2 : (l + 1) * L = l * L + L := by ring
            omega
          have hk := h (q + (l * L + i)) (by omega)
          rw [hL, realReply_submit hi] at hk
          have hi' : i < (theBatch A q O').length := hb ▸ hi
          have hk' := realReply_submit (P := P) (prims := prims) (fuel := fuel) (ctx := ctx) (T := T) (vk := vk') (l := l) hi'
          have hg : (theBatch A q O')[i] = (theBatch A q O)[i] := by simp only [hb]
          rw [hg, ← e, ← congrArg List.length hb] at hk'
          rw [hk'] at hk
          exact Poplar1Reply.verdict.inj hk
        unfold theParam levelParam
        rw [levelPrefixes, levelPrefixes]
        have hc' : theCounts P prims fuel ctx A q vk O (l, levelPrefixes (theCounts P prims fuel ctx A q vk O) T l) =
          theCounts P prims fuel ctx A q vk' O' (l, levelPrefixes (theCounts P prims fuel ctx A q vk O) T l) := hc
        rw [hc', e']
    unfold realMove
    rw [if_neg ht, if_neg ht, ← hb, ← hL, hp _ le_rfl]

theorem filter_residue {α : Type} {L i : ℕ} (hi : i < L) (f : ℕ → α) (l : ℕ) : ∀ j ≤ L,
    (List.range (l * L + j)).filterMap (fun k => if k % L = i then some (f (k / L)) else none) =
      (List.range (if i < j then l + 1 else l)).map f := by
  induction l with
  | zero =>
    intro j
    induction j with
    | zero => intro _; simp
    | succ j ih =>
      intro hj
      rw [← add_assoc, List.range_succ, List.filterMap_append, ih (by omega)]
      have h1 : (0 * L + j) % L = j := by rw [Nat.zero_mul, Nat.zero_add, Nat.mod_eq_of_lt (by omega)]
      have h2 : (0 * L + j) / L = 0 := by rw [Nat.zero_mul, Nat.zero_add, Nat.div_eq_of_lt (by omega)]
      simp only [List.filterMap_cons, List.filterMap_nil, h1, h2]
      by_cases hji : j = i
      · subst hji
        simp
      · rw [if_neg hji]
        by_cases h3 : i < j
        · rw [if_pos h3, if_pos (by omega)]; simp
        · rw [if_neg h3, if_neg (by omega)]; simp
  | succ l ihl =>
    intro j
    induction j with
    | zero =>
      intro _
      have := ihl L le_rfl
      rw [if_pos hi] at this
      rw [if_neg (by omega), add_zero, Nat.succ_mul]
      exact this
    | succ j ih =>
      intro hj
      rw [← add_assoc, List.range_succ, List.filterMap_append, ih (by omega)]
      have h1 : ((l + 1) * L + j) % L = j := by rw [mul_comm, Nat.mul_add_mod, Nat.mod_eq_of_lt (by omega)]
      have h2 : ((l + 1) * L + j) / L = l + 1 := by
        rw [mul_comm, Nat.mul_add_div (by omega), Nat.div_eq_of_lt (by omega), add_zero]
      simp only [List.filterMap_cons, List.filterMap_nil, h1, h2]
      by_cases hji : j = i
      · subst hji
        rw [if_neg (by omega), if_pos rfl, if_pos (by omega), List.range_succ (n := l + 1)]
        simp
      · rw [if_neg hji]
        by_cases h3 : i < j
        · rw [if_pos h3, if_pos (by omega)]; simp
        · rw [if_neg h3, if_neg (by omega)]; simp

theorem previous_real {O : Bytes → ℕ → UInt8} (hnd : ((theBatch A q O).map EncodedReport.nonce).Nodup) {l i : ℕ}
    (hi : i < (theBatch A q O).length) :
    previousParams (theBatch A q O)[i].nonce ((List.range (q + (l * (theBatch A q O).length + i))).map fun k =>
      (realMove P prims fuel ctx T A q vk O k, realReply P prims fuel ctx T A q vk O k)) =
      (List.range l).map (theParam P prims fuel ctx T A q vk O) := by
  unfold Spec.previousParams
  rw [List.filterMap_map, List.range_add, List.filterMap_append, List.filterMap_map]
  have h1 : (List.range q).filterMap ((fun x : Poplar1Move × Poplar1Reply => match x with
      | (.submit e a, .verdict _) => if e.nonce = (theBatch A q O)[i].nonce then some a else none
      | _ => none) ∘ fun k => (realMove P prims fuel ctx T A q vk O k, realReply P prims fuel ctx T A q vk O k)) = [] := by
    refine List.filterMap_eq_nil_iff.2 fun k hk => ?_
    have hk := List.mem_range.1 hk
    simp only [Function.comp_apply, realMove, if_pos hk]
  refine (congrArg₂ (· ++ ·) h1 ?_).trans (List.nil_append _)
  have h2 := filter_residue hi (theParam P prims fuel ctx T A q vk O) l i hi.le
  rw [if_neg (lt_irrefl _)] at h2
  rw [← h2]
  refine List.filterMap_congr fun k _ => ?_
  obtain ⟨L, hL⟩ : ∃ L, L = (theBatch A q O).length := ⟨_, rfl⟩
  have hkL : k % L < (theBatch A q O).length := hL ▸ Nat.mod_lt _ (by omega)
  have hk : k = k / L * L + k % L := by rw [mul_comm]; exact (Nat.div_add_mod k L).symm
  have hm := realMove_submit (P := P) (prims := prims) (fuel := fuel) (ctx := ctx) (T := T) (vk := vk) (l := k / L) hkL
  have hr := realReply_submit (P := P) (prims := prims) (fuel := fuel) (ctx := ctx) (T := T) (vk := vk) (l := k / L) hkL
  rw [← hL, ← hk] at hm hr
  simp only [Function.comp_apply, hm, hr, ← hL]
  by_cases hki : k % L = i
  · simp only [hki, if_true]
  · rw [if_neg hki, if_neg]
    intro hn
    apply hki
    have := (List.Nodup.getElem_inj_iff hnd (i := k % L) (j := i) (hi := by simpa using hkL) (hj := by simpa using hi)).1
      (by simpa using hn)
    exact this

/-- The game with this strategy -/
theorem real_run {bits N : ℕ} (hctx : ctx.length + 8 < 2 ^ 16) {O : Bytes → ℕ → UInt8}
    (hO : O ∈ oracles prims (allVerifyRandInputs ctx) N) (hnd : ((theBatch A q O).map EncodedReport.nonce).Nodup)
    (hlen : ∀ e ∈ theBatch A q O, e.nonce.length = 16)
    (hvalid : ∀ l < bits, isValid (theParam P prims fuel ctx T A q vk O l)
      ((List.range l).map (theParam P prims fuel ctx T A q vk O)) = .ok true) :
    ∀ t ≤ q + bits * (theBatch A q O).length,
      poplar1Run P (withOracle prims O) fuel vk ctx (heavyStrategy P prims fuel ctx T A q N) t = (List.range t).map fun k =>
        (realMove P prims fuel ctx T A q vk O k, realReply P prims fuel ctx T A q vk O k) := by
  intro t
  induction t with
  | zero => intro _; rfl
  | succ t ih =>
    intro ht
    have ih := ih (by omega)
    have hreplies : ((poplar1Run P (withOracle prims O) fuel vk ctx (heavyStrategy P prims fuel ctx T A q N) t).map Prod.snd) =
        (List.range t).map (realReply P prims fuel ctx T A q vk O) := by
      rw [ih, List.map_map]
      rfl
    have hmove : moveAt P prims fuel O vk ctx (heavyStrategy P prims fuel ctx T A q N) t =
        realMove P prims fuel ctx T A q vk O t := by
      unfold moveAt
      rw [hreplies]
      unfold heavyStrategy
      have hx : ∃ x : Bytes × (Bytes → ℕ → UInt8), x.2 ∈ oracles prims (allVerifyRandInputs ctx) N ∧
          (List.range t).map (realReply P prims fuel ctx T A q vk O) =
            (List.range ((List.range t).map (realReply P prims fuel ctx T A q vk O)).length).map
              (realReply P prims fuel ctx T A q x.1 x.2) := ⟨(vk, O), hO, by simp⟩
      rw [dif_pos hx]
      obtain ⟨y, hy⟩ : ∃ y, y = hx.choose := ⟨_, rfl⟩
      have hs := hx.choose_spec
      rw [← hy] at hs ⊢
      simp only [List.length_map, List.length_range] at hs ⊢
      refine (move_agree (oracles_same hctx hO hs.1) fun k hk => ?_).symm
      exact List.map_inj_left.1 hs.2 k (List.mem_range.2 hk)
    rw [run_succ, hmove, ih, List.range_succ, List.map_append, List.map_cons, List.map_nil]
    congr 3
    obtain ⟨L, hL⟩ : ∃ L, L = (theBatch A q O).length := ⟨_, rfl⟩
    by_cases htq : t < q
    · have hm : realMove P prims fuel ctx T A q vk O t = .query (A.ask (A.answers O t)) := by
        unfold realMove
        rw [if_pos htq]
      unfold realReply
      rw [hm]
      simp only [Spec.poplar1Respond, withOracle, if_true]
    · rw [← hL] at ht
      have hL0 : 0 < L := by
        by_contra hc
        have : L = 0 := by omega
        rw [this] at ht
        omega
      obtain ⟨i, hi⟩ : ∃ i, i = (t - q) % L := ⟨_, rfl⟩
      obtain ⟨l, hl⟩ : ∃ l, l = (t - q) / L := ⟨_, rfl⟩
      have hiL : i < (theBatch A q O).length := by
        rw [← hL, hi]
        exact Nat.mod_lt _ hL0
      have hteq : t = q + (l * L + i) := by
        have := Nat.div_add_mod (t - q) L
        rw [← hi, ← hl, mul_comm] at this
        omega
      have hlb : l < bits := by
        rw [hl, Nat.div_lt_iff_lt_mul hL0]
        omega
      have hm := realMove_submit (P := P) (prims := prims) (fuel := fuel) (ctx := ctx) (T := T) (vk := vk) (l := l) hiL
      have hr := realReply_submit (P := P) (prims := prims) (fuel := fuel) (ctx := ctx) (T := T) (vk := vk) (l := l) hiL
      have hp := previous_real (P := P) (prims := prims) (fuel := fuel) (ctx := ctx) (T := T) (vk := vk) hnd (l := l) hiL
      rw [← hL, ← hteq] at hm hr hp
      rw [hm, hr, respond_submit]
      · rfl
      · refine ⟨hlen _ (List.getElem_mem hiL), ?_⟩
        rw [hp]
        exact hvalid l hlb

theorem run_subset (vk ctx : Bytes) (σ : Poplar1Strategy) {s t : ℕ} (h : s ≤ t) {x : Poplar1Move × Poplar1Reply}
    (hx : x ∈ poplar1Run P (withOracle prims O) fuel vk ctx σ s) : x ∈ poplar1Run P (withOracle prims O) fuel vk ctx σ t := by
  induction t with
  | zero =>
    obtain rfl : s = 0 := by omega
    exact hx
  | succ t ih =>
    by_cases hs : s = t + 1
    · subst hs
      exact hx
    · rw [run_succ]
      exact List.mem_append.2 (.inl (ih (by omega)))

/-- If the result is wrong, the strategy wins. -/
theorem wins_of_wrong {bits N M : ℕ} (hP : Poplar1.init bits = .ok P) (h16 : bits ≤ 2 ^ 16) (hf : fuel < 2 ^ 120)
    (hctx : ctx.length + 8 < 2 ^ 16) (hM : M < PyField.modulus Field64)
    (hA : ∀ answers, (A.batch answers).length ≤ M ∧ ((A.batch answers).map EncodedReport.nonce).Nodup ∧
      ∀ e ∈ A.batch answers, e.nonce.length = 16) {O : Bytes → ℕ → UInt8}
    (hO : O ∈ oracles prims (allVerifyRandInputs ctx) N) (hvk : vk.length = 32)
    (h : ¬ Spec.HeavyRight P (withOracle prims O) fuel bits vk ctx T
      (poplar1Received P (withOracle prims O) fuel (A.batch (A.answers O q)))) :
    Spec.Poplar1Wins P (withOracle prims O) fuel vk ctx
      (poplar1Run P (withOracle prims O) fuel vk ctx (heavyStrategy P prims fuel ctx T A q N) (q + bits * M)) := by
  obtain ⟨hbl, hnd, hn⟩ := hA (A.answers O q)
  have hrl : (poplar1Received P (withOracle prims O) fuel (A.batch (A.answers O q))).length < PyField.modulus Field64 :=
    (List.length_filterMap_le ..).trans_lt (hbl.trans_lt hM)
  obtain ⟨hist, hh, h1, h2, h3, h4⟩ := heavy_of_once (prims := withOracle prims O) hP h16 hf hctx hvk hrl T
  by_contra hno
  refine h ⟨hist, hh, h1, h2, h3, fun meas hmeas hfuel => h4 meas hmeas (fun a ha r hr _ o ho => ?_) hfuel⟩
  by_contra hbad
  apply hno
  obtain ⟨k1, k2⟩ := heavy_params (Poplar1.init_ok hP).2 h1
  rw [k1] at ha
  obtain ⟨l, hl, rfl⟩ := List.mem_map.1 ha
  have hl := List.mem_range.1 hl
  obtain ⟨e, he, hre⟩ := List.mem_filterMap.1 hr
  have hre : poplar1Decode P (withOracle prims O) fuel e = .ok r := by
    rcases hd : poplar1Decode P (withOracle prims O) fuel e with err | r'
    · rw [hd] at hre
      cases hre
    · rw [hd] at hre
      cases hre
      rfl
  have hout : poplar1Outputs P (withOracle prims O) fuel vk ctx e (theParam P prims fuel ctx T A q vk O l) = .ok o := by
    rw [outputs_decode, hre]
    exact ho
  obtain ⟨i, hi, rfl⟩ := List.getElem_of_mem he
  refine ⟨_, _, ?_, o, hout, hbad⟩
  have hrun := real_run (P := P) (prims := prims) (fuel := fuel) (T := T) (A := A) (q := q) (vk := vk) (bits := bits) (N := N)
    hctx hO hnd hn k2 _ le_rfl
  refine run_subset vk ctx _ (Nat.add_le_add_left (Nat.mul_le_mul_left bits hbl) q) ?_
  have hrun' := hrun
  unfold theBatch at hrun'
  rw [hrun']
  refine List.mem_map.2 ⟨q + (l * (A.batch (A.answers O q)).length + i), List.mem_range.2 ?_, ?_⟩
  · have : (l + 1) * (A.batch (A.answers O q)).length ≤ bits * (A.batch (A.answers O q)).length :=
      Nat.mul_le_mul_right _ (by omega)
    have h5 : (l + 1) * (A.batch (A.answers O q)).length =
      l * (A.batch (A.answers O q)).length + (A.batch (A.answers O q)).length := by ring
    omega
  · have hm := realMove_submit (P := P) (prims := prims) (fuel := fuel) (ctx := ctx) (T := T) (vk := vk) (A := A) (q := q) (O := O)
      (l := l) hi
    have hr := realReply_submit (P := P) (prims := prims) (fuel := fuel) (ctx := ctx) (T := T) (vk := vk) (A := A) (q := q) (O := O)
      (l := l) hi
    have hacc := accepted_iff.2 ⟨o, hout⟩
    unfold theBatch at hm hr
    rw [hm, hr, hacc]

end
end Vdaf.Poplar1
