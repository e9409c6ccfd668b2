import Verif.Proofs.TestVectorsGen

/-! # The operations of arbitrary test vectors -/

set_option linter.unusedSimpArgs false

namespace Vdaf.TestVectors

theorem assertRaises_iff {α : Type} {r : Res α} : assertRaises r = .ok () ↔ Spec.Raises r := by
  unfold assertRaises Spec.Raises
  cases r with
  | ok a => simp
  | error e => cases e <;> simp

theorem hexAt_iff {l : List Hex} {i : ℕ} {b : Bytes} : hexAt l i = .ok b ↔ Spec.BytesAt l i b := hexAt_ok

theorem allBytes_iff {l : List Hex} {bs : List Bytes} : mapRes fromHex l = .ok bs ↔ Spec.AllBytes l bs :=
  mapRes_ok_iff _ _ _

theorem Spec.BytesAt.unique {l : List Hex} {i : ℕ} {b b' : Bytes} (h : Spec.BytesAt l i b) (h' : Spec.BytesAt l i b') :
    b = b' := by
  rw [← hexAt_iff] at h h'
  rw [h] at h'
  exact Except.ok.inj h'

section
variable {Meas AggParam PubShare InShare OutShare AggShare AggRes VState VShare VMsg : Type}
variable {V : VdafImpl Meas AggParam PubShare InShare OutShare AggShare AggRes VState VShare VMsg}
variable {C : ShareCodec AggParam OutShare AggShare} {tv : TestVec Meas AggRes}

theorem Spec.ListedAggParam.unique {a a' : AggParam} (h : Spec.ListedAggParam V tv a)
    (h' : Spec.ListedAggParam V tv a') : a = a' := by
  obtain ⟨b, h1, h2⟩ := h
  obtain ⟨b', h1', h2'⟩ := h'
  rw [h1] at h1'
  cases h1'
  rw [h2] at h2'
  exact Except.ok.inj h2'

theorem Spec.StateAfter.unique {r j k : ℕ} {st st' : VState} {sh sh' : VShare} (h : Spec.StateAfter V tv r j k st sh)
    (h' : Spec.StateAfter V tv r j k st' sh') : st = st' ∧ sh = sh' := by
  induction h generalizing st' sh' with
  | init hrep hargs h =>
    cases h' with
    | init hrep' hargs' h' =>
      rw [hrep] at hrep'
      cases hrep'
      obtain ⟨h1, h2, h3, h4, ⟨b, h5, h5'⟩, b', h6, h6'⟩ := hargs
      obtain ⟨g1, g2, g3, g4, ⟨c, g5, g5'⟩, c', g6, g6'⟩ := hargs'
      rw [h1] at g1; cases g1
      rw [h2] at g2; cases g2
      cases Spec.ListedAggParam.unique h3 g3
      rw [h4] at g4; cases g4
      rw [h5] at g5; cases g5
      rw [h5'] at g5'; cases g5'
      cases Spec.BytesAt.unique h6 g6
      rw [h6'] at g6'; cases g6'
      rw [h] at h'
      cases h'
      exact ⟨rfl, rfl⟩
  | next hk hrep hctx hb hm h ih =>
    cases h' with
    | next hk' hrep' hctx' hb' hm' h' =>
      rw [hrep] at hrep'; cases hrep'
      rw [hctx] at hctx'; cases hctx'
      cases Spec.BytesAt.unique hb hb'
      cases (ih hk').1
      rw [hm] at hm'; cases hm'
      rw [h] at h'
      cases h'
      exact ⟨rfl, rfl⟩
end

section
variable {Meas AggParam PubShare InShare OutShare AggShare AggRes VState VShare VMsg : Type} [DecidableEq AggRes]
variable {V : VdafImpl Meas AggParam PubShare InShare OutShare AggShare AggRes VState VShare VMsg}
variable {C : ShareCodec AggParam OutShare AggShare} {tv : TestVec Meas AggRes} {S S' : States VState}

theorem shard_iff {r : ℕ} {b : Bool} :
    checkOperation V C tv S (.shard r b) = .ok S' ↔ S' = S ∧ Spec.OperationHolds V C tv (.shard r b) := by
  cases b
  · simp only [checkOperation, Bool.false_eq_true, if_false, Except.bind_eq_ok, getI_eq_ok, Spec.OperationHolds,
      Except.pure_eq', Except.ok.injEq]
    constructor
    · rintro ⟨rep, h1, ctx, h2, nonce, h3, rand, h4, ⟨⟩, h5, rfl⟩
      exact ⟨rfl, rep, ctx, nonce, rand, h1, h2, h3, h4, assertRaises_iff.1 h5⟩
    · rintro ⟨rfl, rep, ctx, nonce, rand, h1, h2, h3, h4, h5⟩
      exact ⟨rep, h1, ctx, h2, nonce, h3, rand, h4, (), assertRaises_iff.2 h5, rfl⟩
  · constructor
    · intro h
      have h' := h
      simp only [checkOperation, if_true, Except.bind_eq_ok, getI_eq_ok] at h'
      obtain ⟨rep, h1, ctx, h2, nonce, h3, rand, h4, -⟩ := h'
      obtain ⟨h5, pub, ins, h6, ⟨b, h7, h8⟩, h9⟩ := (op_shard h2 h1 h3 h4).1 h
      exact ⟨h5, rep, ctx, nonce, rand, h1, h2, h3, h4, by rw [if_pos rfl]; exact ⟨pub, ins, b, h6, h7, h8, h9⟩⟩
    · rintro ⟨h5, rep, ctx, nonce, rand, h1, h2, h3, h4, h⟩
      rw [if_pos rfl] at h
      obtain ⟨pub, ins, b, h6, h7, h8, h9⟩ := h
      exact (op_shard h2 h1 h3 h4).2 ⟨h5, pub, ins, h6, ⟨b, h7, h8⟩, h9⟩

theorem init_sound {j r : ℕ} {b : Bool} (h : checkOperation V C tv S (.verifyInit j r b) = .ok S') :
    Spec.OperationHolds V C tv (.verifyInit j r b) ∧
      (S' = S ∨ ∃ st sh, Spec.StateAfter V tv r j 0 st sh ∧ S' = S.put r j 0 st) := by
  cases b
  · simp only [checkOperation, checkVerifyInitFailure, Bool.false_eq_true, if_false, Except.bind_eq_ok, getI_eq_ok,
      hexAt_iff, Except.pure_eq', Except.ok.injEq] at h
    obtain ⟨rep, h1, key, h2, ctx, h3, ab, h4, nonce, h5, pb, h6, ib, h7, ⟨⟩, ⟨a, h8, pub, h9, s, h10, h11⟩, rfl⟩ := h
    exact ⟨⟨rep, key, ctx, a, nonce, pub, s, h1, ⟨h2, h3, ⟨ab, h4, h8⟩, h5, ⟨pb, h6, h9⟩, ⟨ib, h7, h10⟩⟩,
      assertRaises_iff.1 h11⟩, .inl rfl⟩
  · simp only [checkOperation, checkVerifyInitSuccess, if_true, Except.bind_eq_ok, getI_eq_ok,
      hexAt_iff, Except.pure_eq', Except.ok.injEq, Prod.exists] at h
    obtain ⟨rep, h1, key, h2, ctx, h3, ab, h4, nonce, h5, pb, h6, ib, h7, row, h12, eb, h13, st, ⟨a, h8, pub, h9, s,
      h10, st', sh, h11, eb', h14, ⟨⟩, h15, rfl⟩, ⟨⟩, h16, rfl⟩ := h
    rw [assertBytes_ok] at h15
    subst h15
    have hj : j < V.shares := by
      unfold checkId at h16
      by_contra hn
      rw [if_neg hn] at h16
      cases h16
    refine ⟨⟨rep, key, ctx, a, nonce, pub, s, h1, ⟨h2, h3, ⟨ab, h4, h8⟩, h5, ⟨pb, h6, h9⟩, ⟨ib, h7, h10⟩⟩,
      by rw [if_pos rfl]; exact ⟨hj, st', sh, row, eb', h11, h12, h14, h13⟩⟩, .inr ⟨st', sh, ?_, rfl⟩⟩
    exact .init h1 ⟨h2, h3, ⟨ab, h4, h8⟩, h5, ⟨pb, h6, h9⟩, ⟨ib, h7, h10⟩⟩ h11

theorem init_complete {j r : ℕ} {b : Bool} (h : Spec.OperationHolds V C tv (.verifyInit j r b)) :
    (b = false ∧ checkOperation V C tv S (.verifyInit j r b) = .ok S) ∨
      ∃ st, checkOperation V C tv S (.verifyInit j r b) = .ok (S.put r j 0 st) := by
  obtain ⟨rep, key, ctx, a, nonce, pub, s, h1, ⟨h2, h3, ⟨ab, h4, h8⟩, h5, ⟨pb, h6, h9⟩, ⟨ib, h7, h10⟩⟩, h⟩ := h
  cases b
  · left
    refine ⟨rfl, ?_⟩
    simp only [checkOperation, checkVerifyInitFailure, Bool.false_eq_true, if_false, Except.bind_eq_ok, getI_eq_ok,
      hexAt_iff, Except.pure_eq', Except.ok.injEq]
    exact ⟨rep, h1, key, h2, ctx, h3, ab, h4, nonce, h5, pb, h6, ib, h7, (), ⟨a, h8, pub, h9, s, h10,
      assertRaises_iff.2 h⟩, trivial⟩
  · right
    rw [if_pos rfl] at h
    obtain ⟨hj, st', sh, row, eb', h11, h12, h14, h13⟩ := h
    refine ⟨st', ?_⟩
    simp only [checkOperation, checkVerifyInitSuccess, if_true, Except.bind_eq_ok, getI_eq_ok,
      hexAt_iff, Except.pure_eq', Except.ok.injEq, Prod.exists]
    exact ⟨rep, h1, key, h2, ctx, h3, ab, h4, nonce, h5, pb, h6, ib, h7, row, h12, eb', h13, st', ⟨a, h8, pub, h9, s,
      h10, st', sh, h11, eb', h14, (), assertBytes_ok.2 rfl, rfl⟩, (), by unfold checkId; rw [if_pos hj], rfl⟩

/-- The states that the checker holds are those that result from the listed inputs and messages. -/
def Inv (V : VdafImpl Meas AggParam PubShare InShare OutShare AggShare AggRes VState VShare VMsg)
    (tv : TestVec Meas AggRes) (S : States VState) : Prop :=
  ∀ r j k st, S r j k = some st → ∃ sh, Spec.StateAfter V tv r j k st sh

omit [DecidableEq AggRes] in
theorem Inv.put (hS : Inv V tv S) {r j k : ℕ} {st : VState} {sh : VShare} (h : Spec.StateAfter V tv r j k st sh) :
    Inv V tv (S.put r j k st) := by
  intro r' j' k' st' h'
  unfold States.put at h'
  split at h'
  · rename_i hc
    obtain ⟨rfl, rfl, rfl⟩ := hc
    cases h'
    exact ⟨sh, h⟩
  · exact hS _ _ _ _ h'

theorem message_sound (hS : Inv V tv S) {k r : ℕ} {b : Bool}
    (h : checkOperation V C tv S (.sharesToMessage k r b) = .ok S') :
    Spec.OperationHolds V C tv (.sharesToMessage k r b) ∧ S' = S := by
  have hsts : ∀ {sts : List VState}, mapRes (fun i => getState V S r i k) (List.range V.shares) = .ok sts →
      sts.length = V.shares ∧ ∀ j st, sts[j]? = some st → ∃ sh, Spec.StateAfter V tv r j k st sh := by
    intro sts hs
    obtain ⟨hl, hs⟩ := mapRes_range_iff.1 hs
    refine ⟨hl, fun j st hj => ?_⟩
    obtain ⟨st', h1, h2⟩ := hs j (by rw [← hl]; exact (List.getElem?_eq_some_iff.1 hj).1)
    rw [hj] at h2
    cases h2
    exact hS _ _ _ _ (getState_ok.1 h1).2
  cases b
  · simp only [checkOperation, checkSharesToMessageFailure, Bool.false_eq_true, if_false, Except.bind_eq_ok, getI_eq_ok,
      hexAt_iff, allBytes_iff, Except.pure_eq', Except.ok.injEq] at h
    obtain ⟨rep, h1, ctx, h2, ab, h3, sts, h4, row, h5, bs, h6, ⟨⟩, ⟨a, h7, shs, h8, h9⟩, rfl⟩ := h
    obtain ⟨g1, g2⟩ := hsts h4
    exact ⟨⟨rep, ctx, a, h1, h2, ⟨ab, h3, h7⟩, sts, row, bs, shs, g1, g2, h5, h6, (mapRes_ok_iff _ _ _).1 h8,
      assertRaises_iff.1 h9⟩, rfl⟩
  · simp only [checkOperation, checkSharesToMessageSuccess, if_true, Except.bind_eq_ok, getI_eq_ok,
      hexAt_iff, allBytes_iff, Except.pure_eq', Except.ok.injEq] at h
    obtain ⟨rep, h1, ctx, h2, ab, h3, sts, h4, row, h5, bs, h6, eb, h10, ⟨⟩, ⟨a, h7, shs, h8, msg, h9, mb, h11, h12⟩,
      rfl⟩ := h
    rw [assertBytes_ok] at h12
    subst h12
    obtain ⟨g1, g2⟩ := hsts h4
    exact ⟨⟨rep, ctx, a, h1, h2, ⟨ab, h3, h7⟩, sts, row, bs, shs, g1, g2, h5, h6, (mapRes_ok_iff _ _ _).1 h8,
      by rw [if_pos rfl]; exact ⟨msg, mb, h9, h11, h10⟩⟩, rfl⟩

theorem message_complete (hS : Inv V tv S) {k r : ℕ} {b : Bool} (hc : ∀ j < V.shares, S r j k ≠ none)
    (h : Spec.OperationHolds V C tv (.sharesToMessage k r b)) :
    checkOperation V C tv S (.sharesToMessage k r b) = .ok S := by
  obtain ⟨rep, ctx, a, h1, h2, ⟨ab, h3, h7⟩, sts, row, bs, shs, g1, g2, h5, h6, h8, h⟩ := h
  have h4 : mapRes (fun i => getState V S r i k) (List.range V.shares) = .ok sts := by
    rw [mapRes_range_iff]
    refine ⟨g1, fun j hj => ?_⟩
    obtain ⟨st, hst⟩ := Option.ne_none_iff_exists'.1 (hc j hj)
    obtain ⟨sh, h⟩ := hS _ _ _ _ hst
    obtain ⟨sh', h'⟩ := g2 j (sts[j]'(by omega)) (by simp)
    refine ⟨st, getState_ok.2 ⟨hj, hst⟩, ?_⟩
    rw [(Spec.StateAfter.unique h h').1]
    simp
  rw [← mapRes_ok_iff] at h8
  cases b
  · simp only [checkOperation, checkSharesToMessageFailure, Bool.false_eq_true, if_false, Except.bind_eq_ok, getI_eq_ok,
      hexAt_iff, allBytes_iff, Except.pure_eq', Except.ok.injEq]
    exact ⟨rep, h1, ctx, h2, ab, h3, sts, h4, row, h5, bs, h6, (), ⟨a, h7, shs, h8, assertRaises_iff.2 h⟩, trivial⟩
  · rw [if_pos rfl] at h
    obtain ⟨msg, mb, h9, h11, h10⟩ := h
    simp only [checkOperation, checkSharesToMessageSuccess, if_true, Except.bind_eq_ok, getI_eq_ok,
      hexAt_iff, allBytes_iff, Except.pure_eq', Except.ok.injEq]
    exact ⟨rep, h1, ctx, h2, ab, h3, sts, h4, row, h5, bs, h6, mb, h10, (), ⟨a, h7, shs, h8, msg, h9, mb, h11,
      assertBytes_ok.2 rfl⟩, trivial⟩

theorem next_sound (hS : Inv V tv S) {k j r : ℕ} {b : Bool}
    (h : checkOperation V C tv S (.verifyNext k j r b) = .ok S') :
    Spec.OperationHolds V C tv (.verifyNext k j r b) ∧
      (S' = S ∨ ∃ st sh, Spec.StateAfter V tv r j k st sh ∧ S' = S.put r j k st) := by
  rcases k with _ | k
  · simp only [checkOperation, Except.bind_eq_ok, if_true] at h
    obtain ⟨_, -, _, -, h⟩ := h
    simp at h
  cases b
  · simp only [checkOperation, checkVerifyNextFailure, Bool.false_eq_true, if_false, Except.bind_eq_ok, getI_eq_ok,
      hexAt_iff, Except.pure_eq', Except.ok.injEq, Nat.add_sub_cancel, getState_ok, Nat.succ_ne_zero] at h
    obtain ⟨rep, h1, ctx, h2, st, ⟨h3, h4⟩, b, h5, ⟨⟩, ⟨msg, h6, h7⟩, rfl⟩ := h
    obtain ⟨sh, h8⟩ := hS _ _ _ _ h4
    exact ⟨⟨h3, k, rfl, rep, ctx, st, sh, b, msg, h1, h2, h8, h5, h6, assertRaises_iff.1 h7⟩, .inl rfl⟩
  by_cases hk : k + 1 < V.rounds
  · simp only [checkOperation, checkVerifyNextCont, VdafImpl.verifyNextTuple, if_true, if_pos hk, Except.bind_eq_ok,
      getI_eq_ok, hexAt_iff, Except.pure_eq', Except.ok.injEq, Nat.add_sub_cancel, getState_ok, Nat.succ_ne_zero,
      if_false, Prod.exists] at h
    obtain ⟨rep, h1, ctx, h2, st, ⟨h3, h4⟩, b, h5, row, h6, eb, h7, st1, ⟨msg, h8, st2, sh2, ⟨out, h9, h10⟩, eb', h11,
      ⟨⟩, h12, rfl⟩, rfl⟩ := h
    obtain ⟨sh, h13⟩ := hS _ _ _ _ h4
    rw [assertBytes_ok] at h12
    subst h12
    cases out with
    | out o => cases h10
    | cont st4 sh4 =>
      cases h10
      exact ⟨⟨h3, k, rfl, rep, ctx, st, sh, b, msg, h1, h2, h13, h5, h8, by
        rw [if_pos rfl, if_pos hk]; exact ⟨_, _, row, eb', h9, h6, h11, h7⟩⟩,
        .inr ⟨_, _, .next h13 h1 h2 h5 h8 h9, rfl⟩⟩
  · simp only [checkOperation, checkVerifyNextOut, if_true, if_neg hk, Except.bind_eq_ok, getI_eq_ok,
      hexAt_iff, Except.pure_eq', Except.ok.injEq, Nat.add_sub_cancel, getState_ok, Nat.succ_ne_zero, if_false] at h
    obtain ⟨rep, h1, ctx, h2, st, ⟨h3, h4⟩, b, h5, eb, h7, ⟨⟩, ⟨msg, h8, out, h9, h10⟩, rfl⟩ := h
    obtain ⟨sh, h13⟩ := hS _ _ _ _ h4
    cases out with
    | cont st4 sh4 => cases h10
    | out o =>
      dsimp only at h10
      rw [Except.bind_eq_ok] at h10
      obtain ⟨eb', h11, h12⟩ := h10
      rw [assertBytes_ok] at h12
      subst h12
      exact ⟨⟨h3, k, rfl, rep, ctx, st, sh, b, msg, h1, h2, h13, h5, h8, by
        rw [if_pos rfl, if_neg hk]; exact ⟨o, eb', h9, h11, h7⟩⟩, .inl rfl⟩

theorem next_complete (hS : Inv V tv S) {k j r : ℕ} {b : Bool}
    (hc : ∀ i, k = i + 1 → j < V.shares → S r j i ≠ none)
    (h : Spec.OperationHolds V C tv (.verifyNext k j r b)) :
    (checkOperation V C tv S (.verifyNext k j r b) = .ok S ∧ (b = true → ∀ st sh, ¬ Spec.StateAfter V tv r j k st sh)) ∨
      ∃ st, checkOperation V C tv S (.verifyNext k j r b) = .ok (S.put r j k st) := by
  obtain ⟨h3, k, rfl, rep, ctx, st, sh, mb, msg, h1, h2, h13, h5, h8, h⟩ := h
  have h4 : S r j k = some st := by
    obtain ⟨st', hst⟩ := Option.ne_none_iff_exists'.1 (hc k rfl h3)
    obtain ⟨sh', h'⟩ := hS _ _ _ _ hst
    rw [hst, (Spec.StateAfter.unique h' h13).1]
  cases b
  · left
    refine ⟨?_, by simp⟩
    simp only [checkOperation, checkVerifyNextFailure, Bool.false_eq_true, if_false, Except.bind_eq_ok, getI_eq_ok,
      hexAt_iff, Except.pure_eq', Except.ok.injEq, Nat.add_sub_cancel, getState_ok, Nat.succ_ne_zero]
    exact ⟨rep, h1, ctx, h2, st, ⟨h3, h4⟩, mb, h5, (), ⟨msg, h8, assertRaises_iff.2 h⟩, trivial⟩
  rw [if_pos rfl] at h
  by_cases hk : k + 1 < V.rounds
  · right
    rw [if_pos hk] at h
    obtain ⟨st', sh', row, eb', h9, h6, h11, h7⟩ := h
    refine ⟨st', ?_⟩
    simp only [checkOperation, checkVerifyNextCont, VdafImpl.verifyNextTuple, if_true, if_pos hk, Except.bind_eq_ok,
      getI_eq_ok, hexAt_iff, Except.pure_eq', Except.ok.injEq, Nat.add_sub_cancel, getState_ok, Nat.succ_ne_zero,
      if_false, Prod.exists]
    exact ⟨rep, h1, ctx, h2, st, ⟨h3, h4⟩, mb, h5, row, h6, eb', h7, st', ⟨msg, h8, st', sh', ⟨_, h9, rfl⟩, eb', h11,
      (), assertBytes_ok.2 rfl, rfl⟩, rfl⟩
  · left
    rw [if_neg hk] at h
    obtain ⟨o, eb', h9, h11, h7⟩ := h
    constructor
    · simp only [checkOperation, checkVerifyNextOut, if_true, if_neg hk, Except.bind_eq_ok, getI_eq_ok,
        hexAt_iff, Except.pure_eq', Except.ok.injEq, Nat.add_sub_cancel, getState_ok, Nat.succ_ne_zero, if_false]
      refine ⟨rep, h1, ctx, h2, st, ⟨h3, h4⟩, mb, h5, eb', h7, (), ⟨msg, h8, _, h9, ?_⟩, trivial⟩
      dsimp only
      rw [h11, Except.ok_bind']
      exact assertBytes_ok.2 rfl
    · intro _ st' sh' hs
      cases hs with
      | next hk' hrep' hctx' hb' hm' h' =>
        rw [h1] at hrep'; cases hrep'
        rw [h2] at hctx'; cases hctx'
        cases Spec.BytesAt.unique h5 hb'
        cases (Spec.StateAfter.unique h13 hk').1
        rw [h8] at hm'; cases hm'
        rw [h9] at h'
        cases h'

theorem aggregate_iff {j : ℕ} {b : Bool} :
    checkOperation V C tv S (.aggregate j b) = .ok S' ↔ S' = S ∧ Spec.OperationHolds V C tv (.aggregate j b) := by
  have hos : ∀ {a : AggParam} {os : List OutShare},
      (∃ bs, mapRes (fun rep : Report Meas => hexAt rep.outShares j) tv.reports = .ok bs ∧
        mapRes (fun b => C.decodeOutShare a b) bs = .ok os) ↔
      List.Forall₂ (fun (rep : Report Meas) o => ∃ b, Spec.BytesAt rep.outShares j b ∧ C.decodeOutShare a b = .ok o)
        tv.reports os := by
    intro a os
    simp only [mapRes_ok_iff, hexAt_iff]
    exact forall₂_comp
  cases b
  · simp only [checkOperation, checkAggregateFailure, Bool.false_eq_true, if_false, Except.bind_eq_ok,
      Except.pure_eq', Except.ok.injEq, Spec.OperationHolds]
    constructor
    · rintro ⟨ab, h1, bs, h2, ⟨⟩, ⟨a, h3, os, h4, h5⟩, rfl⟩
      exact ⟨rfl, a, os, ⟨ab, h1, h3⟩, hos.1 ⟨bs, h2, h4⟩, assertRaises_iff.1 h5⟩
    · rintro ⟨rfl, a, os, ⟨ab, h1, h3⟩, h, h5⟩
      obtain ⟨bs, h2, h4⟩ := hos.2 h
      exact ⟨ab, h1, bs, h2, (), ⟨a, h3, os, h4, assertRaises_iff.2 h5⟩, rfl⟩
  · simp only [checkOperation, checkAggregateSuccess, if_true, Except.bind_eq_ok, hexAt_iff,
      Except.pure_eq', Except.ok.injEq, Spec.OperationHolds, Spec.aggregate]
    constructor
    · rintro ⟨ab, h1, bs, h2, eb, h6, ⟨⟩, ⟨a, h3, os, h4, s0, h5, s, h7, eb', h8, h9⟩, rfl⟩
      rw [assertBytes_ok] at h9
      subst h9
      exact ⟨rfl, a, os, ⟨ab, h1, h3⟩, hos.1 ⟨bs, by simpa only [hexAt_iff] using h2, h4⟩, s, eb', ⟨s0, h5, h7⟩, h8, h6⟩
    · rintro ⟨rfl, a, os, ⟨ab, h1, h3⟩, h, s, eb', ⟨s0, h5, h7⟩, h8, h6⟩
      obtain ⟨bs, h2, h4⟩ := hos.2 h
      exact ⟨ab, h1, bs, h2, eb', h6, (), ⟨a, h3, os, h4, s0, h5, s, h7, eb', h8, assertBytes_ok.2 rfl⟩, rfl⟩

theorem unshard_iff {b : Bool} :
    checkOperation V C tv S (.unshard b) = .ok S' ↔ S' = S ∧ Spec.OperationHolds V C tv (.unshard b) := by
  have hos : ∀ {a : AggParam} {os : List AggShare},
      (∃ bs, mapRes fromHex tv.aggShares = .ok bs ∧ mapRes (fun b => C.decodeAggShare a b) bs = .ok os) ↔
      List.Forall₂ (fun h s => ∃ b, fromHex h = .ok b ∧ C.decodeAggShare a b = .ok s) tv.aggShares os := by
    intro a os
    simp only [mapRes_ok_iff]
    exact forall₂_comp
  cases b
  · simp only [checkOperation, checkUnshardFailure, Bool.false_eq_true, if_false, Except.bind_eq_ok,
      Except.pure_eq', Except.ok.injEq, Spec.OperationHolds]
    constructor
    · rintro ⟨ab, h1, bs, h2, ⟨⟩, ⟨a, h3, os, h4, h5⟩, rfl⟩
      exact ⟨rfl, a, os, ⟨ab, h1, h3⟩, hos.1 ⟨bs, h2, h4⟩, assertRaises_iff.1 h5⟩
    · rintro ⟨rfl, a, os, ⟨ab, h1, h3⟩, h, h5⟩
      obtain ⟨bs, h2, h4⟩ := hos.2 h
      exact ⟨ab, h1, bs, h2, (), ⟨a, h3, os, h4, assertRaises_iff.2 h5⟩, rfl⟩
  · simp only [checkOperation, checkUnshardSuccess, if_true, Except.bind_eq_ok, pyAssert_eq_ok, decide_eq_true_eq,
      Except.pure_eq', Except.ok.injEq, Spec.OperationHolds]
    constructor
    · rintro ⟨ab, h1, bs, h2, ⟨⟩, ⟨a, h3, os, h4, R, h5, h6⟩, rfl⟩
      exact ⟨rfl, a, os, ⟨ab, h1, h3⟩, hos.1 ⟨bs, h2, h4⟩, R, h5, h6.symm⟩
    · rintro ⟨rfl, a, os, ⟨ab, h1, h3⟩, h, R, h5, h6⟩
      obtain ⟨bs, h2, h4⟩ := hos.2 h
      exact ⟨ab, h1, bs, h2, (), ⟨a, h3, os, h4, R, h5, h6.symm⟩, rfl⟩

theorem op_sound (hS : Inv V tv S) {op : Operation} (h : checkOperation V C tv S op = .ok S') :
    Spec.OperationHolds V C tv op ∧ Inv V tv S' := by
  cases op with
  | shard r b =>
    obtain ⟨rfl, h'⟩ := shard_iff.1 h
    exact ⟨h', hS⟩
  | verifyInit j r b =>
    obtain ⟨h1, rfl | ⟨st, sh, h2, rfl⟩⟩ := init_sound h
    · exact ⟨h1, hS⟩
    · exact ⟨h1, hS.put h2⟩
  | sharesToMessage k r b =>
    obtain ⟨h', rfl⟩ := message_sound hS h
    exact ⟨h', hS⟩
  | verifyNext k j r b =>
    obtain ⟨h1, rfl | ⟨st, sh, h2, rfl⟩⟩ := next_sound hS h
    · exact ⟨h1, hS⟩
    · exact ⟨h1, hS.put h2⟩
  | aggregate j b =>
    obtain ⟨rfl, h'⟩ := aggregate_iff.1 h
    exact ⟨h', hS⟩
  | unshard b =>
    obtain ⟨rfl, h'⟩ := unshard_iff.1 h
    exact ⟨h', hS⟩

theorem ops_sound {ops : List Operation} (hS : Inv V tv S)
    (h : forFold ops S (fun S op => checkOperation V C tv S op) = .ok S') :
    ∀ op ∈ ops, Spec.OperationHolds V C tv op := by
  induction ops generalizing S with
  | nil => simp
  | cons op ops ih =>
    rw [forFold_cons, Except.bind_eq_ok] at h
    obtain ⟨S1, h1, h2⟩ := h
    obtain ⟨h3, h4⟩ := op_sound hS h1
    simp only [List.mem_cons, forall_eq_or_imp]
    exact ⟨h3, ih h4 h2⟩

omit [DecidableEq AggRes] in
theorem put_ne {r j k r' j' k' : ℕ} {st : VState} (h : S r' j' k' ≠ none) : S.put r j k st r' j' k' ≠ none := by
  unfold States.put
  split
  · simp
  · exact h

omit [DecidableEq AggRes] in
theorem put_self {r j k : ℕ} {st : VState} : S.put r j k st r j k ≠ none := by
  simp [States.put]

theorem op_complete (hS : Inv V tv S) {op : Operation} (hop : Spec.OperationHolds V C tv op)
    (hc : ∀ r j k, j < V.shares → Spec.Consumes op r j k → S r j k ≠ none) :
    ∃ S', checkOperation V C tv S op = .ok S' ∧ (∀ r j k, S r j k ≠ none → S' r j k ≠ none) ∧
      ∀ r j k st sh, Spec.Produces op r j k → Spec.StateAfter V tv r j k st sh → S' r j k ≠ none := by
  cases op with
  | shard r b => exact ⟨S, shard_iff.2 ⟨rfl, hop⟩, fun _ _ _ h => h, fun _ _ _ _ _ hp => by simp [Spec.Produces] at hp⟩
  | verifyInit j r b =>
    rcases init_complete (S := S) hop with ⟨rfl, h⟩ | ⟨st, h⟩
    · exact ⟨S, h, fun _ _ _ h => h, fun _ _ _ _ _ hp => by simp [Spec.Produces] at hp⟩
    · refine ⟨_, h, fun _ _ _ h => put_ne h, fun r' j' k' _ _ hp _ => ?_⟩
      rcases hp with ⟨hp, rfl⟩ | hp
      · cases hp
        exact put_self
      · cases hp
  | sharesToMessage k r b =>
    exact ⟨S, message_complete hS (fun j hj => hc r j k hj (.inl ⟨b, rfl⟩)) hop, fun _ _ _ h => h,
      fun _ _ _ _ _ hp => by simp [Spec.Produces] at hp⟩
  | verifyNext k j r b =>
    rcases next_complete hS (fun i hi hj => hc r j i hj (.inr ⟨b, by rw [hi]⟩)) hop with ⟨h, h'⟩ | ⟨st, h⟩
    · refine ⟨S, h, fun _ _ _ h => h, fun r' j' k' st sh hp hst => ?_⟩
      rcases hp with ⟨hp, -⟩ | hp
      · cases hp
      · cases hp
        exact absurd hst (h' rfl st sh)
    · refine ⟨_, h, fun _ _ _ h => put_ne h, fun r' j' k' _ _ hp _ => ?_⟩
      rcases hp with ⟨hp, -⟩ | hp
      · cases hp
      · cases hp
        exact put_self
  | aggregate j b =>
    exact ⟨S, aggregate_iff.2 ⟨rfl, hop⟩, fun _ _ _ h => h, fun _ _ _ _ _ hp => by simp [Spec.Produces] at hp⟩
  | unshard b =>
    exact ⟨S, unshard_iff.2 ⟨rfl, hop⟩, fun _ _ _ h => h, fun _ _ _ _ _ hp => by simp [Spec.Produces] at hp⟩

/-- An operation that holds can only consume states that exist. -/
theorem consumes_exists {op : Operation} (hop : Spec.OperationHolds V C tv op) {r j k : ℕ} (hj : j < V.shares)
    (hc : Spec.Consumes op r j k) : ∃ st sh, Spec.StateAfter V tv r j k st sh := by
  rcases hc with ⟨b, rfl⟩ | ⟨b, rfl⟩
  · obtain ⟨rep, ctx, a, -, -, -, sts, row, bs, shs, g1, g2, -⟩ := hop
    obtain ⟨sh, h⟩ := g2 j (sts[j]'(by omega)) (by simp)
    exact ⟨_, sh, h⟩
  · obtain ⟨-, i, hi, rep, ctx, st, sh, b, msg, -, -, h, -⟩ := hop
    cases hi
    exact ⟨st, sh, h⟩

theorem ops_complete {ops : List Operation} (hS : Inv V tv S)
    (hops : ∀ op ∈ ops, Spec.OperationHolds V C tv op)
    (hord : ∀ (p : ℕ) op r j k, ops[p]? = some op → j < V.shares → Spec.Consumes op r j k → S r j k ≠ none ∨
      ∃ q < p, ∃ op', ops[q]? = some op' ∧ Spec.Produces op' r j k) :
    ∃ S', forFold ops S (fun S op => checkOperation V C tv S op) = .ok S' := by
  induction ops generalizing S with
  | nil => exact ⟨S, rfl⟩
  | cons op ops ih =>
    have hop := hops op (by simp)
    obtain ⟨S1, h1, h2, h3⟩ := op_complete hS hop fun r j k hj hc => by
      rcases hord 0 op r j k (by simp) hj hc with h | ⟨q, hq, -⟩
      · exact h
      · omega
    obtain ⟨S', h4⟩ := ih (op_sound hS h1).2 (fun op' h => hops op' (by simp [h])) (by
      intro p op' r j k hp hj hc
      rcases hord (p + 1) op' r j k (by simpa using hp) hj hc with h | ⟨q, hq, op'', hq', hp'⟩
      · exact .inl (h2 _ _ _ h)
      · cases q with
        | zero =>
          simp only [List.getElem?_cons_zero, Option.some.injEq] at hq'
          subst hq'
          obtain ⟨st, sh, hst⟩ := consumes_exists (hops op' (List.mem_cons_of_mem _ (List.mem_of_getElem? hp))) hj hc
          exact .inl (h3 r j k st sh hp' hst)
        | succ q => exact .inr ⟨q, by omega, op'', by simpa using hq', hp'⟩)
    exact ⟨S', by rw [forFold_cons, h1, Except.ok_bind', h4]⟩
end
end Vdaf.TestVectors
