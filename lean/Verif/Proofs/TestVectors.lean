import Verif.Spec.TestVectors
import Verif.Proofs.Drivers

/-! The test vector generator and the checker agree. -/

namespace Vdaf.TestVectors

/-! ## Hexadecimal strings -/

theorem digit_facts : ∀ n < 16, digitValue (hexDigits.getD n '0') = some n ∧
    isSpace (hexDigits.getD n '0') = false := by decide

theorem fromHex_hex (b : Bytes) : fromHex (hex b) = .ok b := by
  induction b with
  | nil => rfl
  | cons x xs ih =>
    have hx : x.toNat < 256 := x.toNat_lt
    obtain ⟨h1, h2⟩ := digit_facts (x.toNat / 16) (by omega)
    obtain ⟨h3, -⟩ := digit_facts (x.toNat % 16) (by omega)
    unfold hex fromHex
    rw [if_neg (by rw [h2]; decide), h1, h3]
    dsimp only
    rw [ih]
    have : 16 * (x.toNat / 16) + x.toNat % 16 = x.toNat := Nat.div_add_mod _ _
    rw [this]
    simp

theorem same_hex {b : Bytes} {h : Hex} : Spec.SameBytes (hex b) h ↔ fromHex h = .ok b := by
  unfold Spec.SameBytes
  rw [fromHex_hex]
  constructor
  · rintro ⟨c, h1, h2⟩
    rw [h2, Except.ok.inj h1]
  · intro h
    exact ⟨b, rfl, h⟩

/-! ## Loops over the Aggregators -/

section
variable {VState : Type}

/-- Write the states `sts` of all the Aggregators for a report and a round. -/
def putAll (S : States VState) (r k : ℕ) (sts : List VState) : States VState :=
  fun r' j k' => if r' = r ∧ k' = k ∧ j < sts.length then sts[j]? else S r' j k'

theorem putAll_nil (S : States VState) (r k : ℕ) : putAll S r k [] = S := by
  funext r' j k'
  simp [putAll]

theorem putAll_snoc (S : States VState) (r k : ℕ) (sts : List VState) (st : VState) :
    putAll S r k (sts ++ [st]) = (putAll S r k sts).put r sts.length k st := by
  funext r' j k'
  unfold putAll States.put
  by_cases h : r' = r ∧ k' = k
  · obtain ⟨rfl, rfl⟩ := h
    rcases lt_trichotomy j sts.length with h | h | h
    · simp [h, Nat.lt_succ_of_lt h, h.ne]
    · simp [h]
    · simp [h.ne', show ¬ j < sts.length by omega, show ¬ j < sts.length + 1 by omega]
  · have h1 : ¬ (r' = r ∧ k' = k ∧ j < (sts ++ [st]).length) := fun h' => h ⟨h'.1, h'.2.1⟩
    have h2 : ¬ (r' = r ∧ k' = k ∧ j < sts.length) := fun h' => h ⟨h'.1, h'.2.1⟩
    have h3 : ¬ (r' = r ∧ j = sts.length ∧ k' = k) := fun h' => h ⟨h'.1, h'.2.2⟩
    simp only [if_neg h1, if_neg h2, if_neg h3]

theorem putAll_same {S : States VState} {r k : ℕ} {sts : List VState} {j : ℕ} (h : j < sts.length) :
    putAll S r k sts r j k = sts[j]? := by
  simp [putAll, h]

theorem putAll_other {S : States VState} {r k k' : ℕ} {sts : List VState} {j : ℕ} (h : k' ≠ k) :
    putAll S r k sts r j k' = S r j k' := by
  simp [putAll, h]

/-- A loop in which iteration `j` reads only the state of Aggregator `j` in round `k` and writes its state in another
round. -/
theorem fold_put {f : States VState → ℕ → Res (States VState)} {S : States VState} {r k k' : ℕ}
    {Φ : ℕ → Option VState → VState → Prop} (hk : k ≠ k') {N : ℕ}
    (hf : ∀ S' S'' : States VState, ∀ j < N, (∀ j, S' r j k = S r j k) →
      (f S' j = .ok S'' ↔ ∃ st, Φ j (S r j k) st ∧ S'' = S'.put r j k' st))
    (n : ℕ) (hn : n ≤ N) (S' : States VState) :
    forFold (List.range n) S f = .ok S' ↔
      ∃ sts : List VState, sts.length = n ∧ (∀ j (h : j < sts.length), Φ j (S r j k) sts[j]) ∧
        S' = putAll S r k' sts := by
  induction n generalizing S' with
  | zero =>
    simp only [List.range_zero, forFold_nil, Except.ok.injEq]
    constructor
    · rintro rfl
      exact ⟨[], rfl, by simp, (putAll_nil _ _ _).symm⟩
    · rintro ⟨sts, h, -, rfl⟩
      rw [List.length_eq_zero_iff.1 h, putAll_nil]
  | succ n ih =>
    rw [List.range_succ, forFold_append, Except.bind_eq_ok]
    have ih := ih (by omega)
    constructor
    · rintro ⟨S1, h1, h2⟩
      obtain ⟨sts, h3, h4, rfl⟩ := (ih S1).1 h1
      rw [forFold_cons, Except.bind_eq_ok] at h2
      obtain ⟨S2, h2, h5⟩ := h2
      cases h5
      obtain ⟨st, h6, rfl⟩ := (hf _ _ _ (by omega) fun j => putAll_other hk).1 h2
      refine ⟨sts ++ [st], by simp [h3], fun j h => ?_, ?_⟩
      · by_cases hj : j < sts.length
        · rw [List.getElem_append_left hj]
          exact h4 j hj
        · have : j = n := by
            simp at h
            omega
          subst this
          rw [List.getElem_append_right (by omega)]
          simpa using h6
      · rw [putAll_snoc, h3]
    · rintro ⟨sts, h1, h2, rfl⟩
      rcases List.eq_nil_or_concat sts with rfl | ⟨sts', st, rfl⟩
      · simp at h1
      rw [List.concat_eq_append] at *
      have h3 : sts'.length = n := by simpa using h1
      refine ⟨_, (ih _).2 ⟨sts', h3, fun j h => ?_, rfl⟩, ?_⟩
      · have := h2 j (by simp; omega)
        rwa [List.getElem_append_left h] at this
      · rw [forFold_cons, (hf _ _ _ (by omega) fun j => putAll_other hk).2 ⟨st, ?_, ?_⟩]
        · rfl
        · have := h2 n (by simp; omega)
          rw [List.getElem_append_right (by omega)] at this
          simpa [h3] using this
        · rw [putAll_snoc, h3]

/-- A loop that does not change the states. -/
theorem fold_same {α : Type} {f : States VState → α → Res (States VState)} {S : States VState} {Φ : α → Prop}
    {l : List α} (hf : ∀ S', ∀ x ∈ l, (f S x = .ok S' ↔ S' = S ∧ Φ x)) (S' : States VState) :
    forFold l S f = .ok S' ↔ S' = S ∧ ∀ x ∈ l, Φ x := by
  induction l with
  | nil =>
    simp only [forFold_nil, Except.ok.injEq]
    constructor
    · rintro rfl
      exact ⟨rfl, by simp⟩
    · exact fun h => h.1.symm
  | cons a l ih =>
    rw [forFold_cons, Except.bind_eq_ok]
    have ih := ih fun S' x hx => hf S' x (by simp [hx])
    constructor
    · rintro ⟨S1, h1, h2⟩
      obtain ⟨rfl, h3⟩ := (hf _ a (by simp)).1 h1
      obtain ⟨rfl, h4⟩ := ih.1 h2
      exact ⟨rfl, by simpa using ⟨h3, h4⟩⟩
    · rintro ⟨rfl, h⟩
      exact ⟨_, (hf _ a (by simp)).2 ⟨rfl, h a (by simp)⟩, ih.2 ⟨rfl, fun x hx => h x (by simp [hx])⟩⟩
end

/-! ## The operations -/

section
variable {Meas AggParam PubShare InShare OutShare AggShare AggRes VState VShare VMsg : Type} [DecidableEq AggRes]
variable {V : VdafImpl Meas AggParam PubShare InShare OutShare AggShare AggRes VState VShare VMsg}
variable {C : ShareCodec AggParam OutShare AggShare}
variable {tv : TestVec Meas AggRes} {key ctx apb : Bytes} {a : AggParam}

theorem assertBytes_ok {x y : Bytes} : assertBytes x y = .ok () ↔ x = y := by
  unfold assertBytes pyAssert
  by_cases h : x = y <;> simp [h]

/-- The result encodes to the bytes of the hexadecimal string. -/
def Enc (r : Res Bytes) (h : Hex) : Prop := ∃ b, r = .ok b ∧ fromHex h = .ok b

theorem hexAt_ok {l : List Hex} {i : ℕ} {b : Bytes} : hexAt l i = .ok b ↔ ∃ h, l[i]? = some h ∧ fromHex h = .ok b := by
  unfold hexAt
  simp only [Except.bind_eq_ok, getI_eq_ok]

omit [DecidableEq AggRes] in
theorem getState_ok {S : States VState} {r j k : ℕ} {st : VState} :
    getState V S r j k = .ok st ↔ j < V.shares ∧ S r j k = some st := by
  unfold getState checkId
  by_cases h : j < V.shares
  · rw [if_pos h, Except.ok_bind']
    cases S r j k <;> simp [h]
  · rw [if_neg h]
    simp [h]

theorem zip_fold {α β : Type} {f : Unit → α × β → Res Unit} {R : α → β → Prop}
    (hf : ∀ x y, f () (x, y) = .ok () ↔ R x y) (l : List α) (l' : List β) (hl : l.length = l'.length) :
    forFold (l.zip l') () f = .ok () ↔ List.Forall₂ R l l' := by
  induction l generalizing l' with
  | nil =>
    cases l' with
    | nil => simp
    | cons => simp at hl
  | cons x l ih =>
    cases l' with
    | nil => simp at hl
    | cons y l' =>
      rw [List.zip_cons_cons, forFold_cons, Except.bind_eq_ok, List.forall₂_cons]
      constructor
      · rintro ⟨⟨⟩, h1, h2⟩
        exact ⟨(hf _ _).1 h1, (ih l' (by simpa using hl)).1 h2⟩
      · rintro ⟨h1, h2⟩
        exact ⟨(), (hf _ _).2 h1, (ih l' (by simpa using hl)).2 h2⟩

theorem forall₂_comp {α β γ : Type} {R : α → β → Prop} {Q : β → γ → Prop} {l : List α} {l'' : List γ} :
    (∃ l', List.Forall₂ R l l' ∧ List.Forall₂ Q l' l'') ↔ List.Forall₂ (fun x z => ∃ y, R x y ∧ Q y z) l l'' := by
  constructor
  · rintro ⟨l', h1, h2⟩
    induction h1 generalizing l'' with
    | nil =>
      cases h2
      exact .nil
    | cons h _ ih =>
      cases h2 with
      | cons h' h2 => exact .cons ⟨_, h, h'⟩ (ih h2)
  · intro h
    induction h with
    | nil => exact ⟨[], .nil, .nil⟩
    | cons h _ ih =>
      obtain ⟨y, h1, h2⟩ := h
      obtain ⟨l', h3, h4⟩ := ih
      exact ⟨y :: l', .cons h1 h3, .cons h2 h4⟩

section
variable {rep : Report Meas} {r : ℕ} {nonce rand : Bytes} {S S' : States VState}

theorem op_shard (hctx : fromHex tv.ctx = .ok ctx) (hrep : tv.reports[r]? = some rep)
    (hnonce : fromHex rep.nonce = .ok nonce) (hrand : fromHex rep.rand = .ok rand) :
    checkOperation V C tv S (.shard r true) = .ok S' ↔ S' = S ∧ ∃ pub ins,
      V.shard ctx rep.measurement nonce rand = .ok (pub, ins) ∧ Enc (V.encodePublicShare pub) rep.publicShare ∧
      List.Forall₂ (fun s h => Enc (V.encodeInputShare s) h) ins rep.inputShares := by
  have key : ∀ (ins : List InShare) (bs : List Bytes), ins.length = bs.length →
      (forFold (ins.zip bs) () (fun _ (x : InShare × Bytes) => do
        let encoded ← V.encodeInputShare x.1
        assertBytes encoded x.2) = .ok () ↔ List.Forall₂ (fun s b => V.encodeInputShare s = .ok b) ins bs) := by
    refine fun ins bs => zip_fold (fun x y => ?_) ins bs
    rw [Except.bind_eq_ok]
    simp only [assertBytes_ok]
    constructor
    · rintro ⟨b, h, rfl⟩
      exact h
    · exact fun h => ⟨_, h, rfl⟩
  unfold checkOperation
  dsimp only
  rw [getI_of_some hrep, Except.ok_bind', hctx, Except.ok_bind', hnonce, Except.ok_bind', hrand, Except.ok_bind', if_pos rfl]
  simp only [Except.bind_eq_ok, Except.pure_eq', Except.ok.injEq]
  unfold checkShardSuccess
  simp only [Except.bind_eq_ok, Prod.exists, mapRes_ok_iff]
  constructor
  · rintro ⟨pb, hpb, ibs, hibs, ⟨⟩, ⟨pub, ins, h1, b, h2, ⟨⟩, h3, ⟨⟩, h4, h5⟩, rfl⟩
    have hl : ins.length = ibs.length := by
      unfold pyAssert at h4
      split at h4
      · rename_i h
        simpa using h
      · cases h4
    rw [assertBytes_ok] at h3
    subst h3
    refine ⟨rfl, pub, ins, h1, ⟨b, h2, hpb⟩, forall₂_comp.1 ⟨ibs, (key ins ibs hl).1 h5, hibs.flip⟩⟩
  · rintro ⟨rfl, pub, ins, h1, ⟨b, h2, h3⟩, h4⟩
    obtain ⟨ibs, h5, h6⟩ := forall₂_comp.2 h4
    refine ⟨b, h3, ibs, h6.flip, (), ⟨pub, ins, h1, b, h2, (), assertBytes_ok.2 rfl, (), ?_,
      (key ins ibs h5.length_eq).2 h5⟩, rfl⟩
    unfold pyAssert
    rw [if_pos (by simpa using h5.length_eq)]

theorem forall₂_getElem? {α β : Type} {R : α → β → Prop} {l : List α} {l' : List β} (h : List.Forall₂ R l l') {i : ℕ} :
    (∀ x, l[i]? = some x → ∃ y, l'[i]? = some y ∧ R x y) ∧ ∀ y, l'[i]? = some y → ∃ x, l[i]? = some x ∧ R x y := by
  induction h generalizing i with
  | nil => simp
  | cons h _ ih =>
    cases i with
    | zero => simpa using h
    | succ i => simpa using ih

theorem op_init (hctx : fromHex tv.ctx = .ok ctx) (hkey : fromHex tv.verifyKey = .ok key)
    (hap : fromHex tv.aggParam = .ok apb) (ha : V.decodeAggParam apb = .ok a) (hrep : tv.reports[r]? = some rep)
    (hnonce : fromHex rep.nonce = .ok nonce) {pub : PubShare}
    (hpub : ∃ b, fromHex rep.publicShare = .ok b ∧ V.decodePublicShare b = .ok pub) {ins : List InShare}
    (hins : List.Forall₂ (fun s h => Enc (V.encodeInputShare s) h) ins rep.inputShares) {j : ℕ}
    (hdec : ∀ s b, ins[j]? = some s → V.encodeInputShare s = .ok b → V.decodeInputShare j b = .ok s)
    (hj : j < V.shares) :
    checkOperation V C tv S (.verifyInit j r true) = .ok S' ↔ ∃ st,
      (∃ s sh row h, ins[j]? = some s ∧ V.verifyInit key ctx j a nonce pub s = .ok (st, sh) ∧
        rep.verifierShares[0]? = some row ∧ row[j]? = some h ∧ Enc (V.encodeVerifierShare sh) h) ∧
      S' = S.put r j 0 st := by
  obtain ⟨pb, hpb, hpub⟩ := hpub
  unfold checkOperation
  dsimp only
  rw [getI_of_some hrep, Except.ok_bind', hkey, Except.ok_bind', hctx, Except.ok_bind', hap, Except.ok_bind', hnonce,
    Except.ok_bind', hpb, Except.ok_bind']
  unfold checkVerifyInitSuccess
  simp only [if_true, Except.bind_eq_ok, Except.pure_eq', Except.ok.injEq, hexAt_ok, getI_eq_ok, Prod.exists]
  constructor
  · rintro ⟨ib, ⟨h, h1, h2⟩, row, h3, eb, ⟨h', h4, h5⟩, st, ⟨a', h6, pub', h7, s', h8, st', sh, h9, eb', h10, ⟨⟩, h11, rfl⟩,
      ⟨⟩, h12, rfl⟩
    obtain ⟨s, g1, b, g2, g3⟩ := (forall₂_getElem? hins).2 _ h1
    rw [g3] at h2
    cases h2
    rw [hdec s _ g1 g2] at h8
    cases h8
    rw [ha] at h6
    cases h6
    rw [hpub] at h7
    cases h7
    rw [assertBytes_ok] at h11
    subst h11
    exact ⟨_, ⟨_, sh, row, h', g1, h9, h3, h4, eb', h10, h5⟩, rfl⟩
  · rintro ⟨st, ⟨s, sh, row, h', g1, h9, h3, h4, eb', h10, h5⟩, rfl⟩
    obtain ⟨h0, g2, b, g3, g4⟩ := (forall₂_getElem? hins).1 _ g1
    refine ⟨b, ⟨h0, g2, g4⟩, row, h3, eb', ⟨h', h4, h5⟩, st, ⟨a, ha, pub, hpub, s, hdec s b g1 g3, st, sh, h9, eb', h10, (),
      assertBytes_ok.2 rfl, rfl⟩, (), ?_, rfl⟩
    unfold checkId
    rw [if_pos hj]

theorem op_message (hctx : fromHex tv.ctx = .ok ctx) (hap : fromHex tv.aggParam = .ok apb)
    (ha : V.decodeAggParam apb = .ok a) (hrep : tv.reports[r]? = some rep) {k : ℕ} {sts : List VState}
    (hlen : sts.length = V.shares) (hsts : ∀ j < V.shares, S r j k = sts[j]?)
    {row : List Hex} (hrow : rep.verifierShares[k]? = some row) {shs : List VShare} (hlen' : shs.length = V.shares)
    (hshs : ∀ j (h : j < sts.length) (h' : j < shs.length), ∃ x b, row[j]? = some x ∧ fromHex x = .ok b ∧
      V.decodeVerifierShare sts[j] b = .ok shs[j]) :
    checkOperation V C tv S (.sharesToMessage k r true) = .ok S' ↔ S' = S ∧
      (∃ bs, mapRes fromHex row = .ok bs) ∧ ∃ msg h, V.sharesToMessage ctx a shs = .ok msg ∧
      rep.verifierMessages[k]? = some h ∧ Enc (V.encodeVerifierMessage msg) h := by
  have hst : mapRes (fun i => getState V S r i k) (List.range V.shares) = .ok sts := by
    rw [mapRes_range_iff]
    refine ⟨hlen, fun j hj => ⟨sts[j], ?_, by simp⟩⟩
    rw [getState_ok, hsts j hj]
    exact ⟨hj, by simp⟩
  have hdec : ∀ bs, mapRes fromHex row = .ok bs →
      mapRes (fun x : VState × Bytes => V.decodeVerifierShare x.1 x.2) (sts.zip bs) = .ok shs := by
    intro bs hbs
    have hl : V.shares ≤ bs.length := by
      rw [mapRes_length hbs]
      by_contra hlt
      obtain ⟨x, b, hx, -⟩ := hshs row.length (by omega) (by omega)
      simp at hx
    rw [mapRes_ok_iff, List.forall₂_iff_get]
    refine ⟨by simp; omega, fun j h h' => ?_⟩
    obtain ⟨x, b, hx, hb, hd⟩ := hshs j (by simp at h; omega) h'
    have hj : j < row.length := (List.getElem?_eq_some_iff.1 hx).1
    have hj' : j < bs.length := by simp at h; omega
    have h1 := mapRes_getElem hbs j hj hj'
    rw [(List.getElem?_eq_some_iff.1 hx).2, hb] at h1
    simp only [List.get_eq_getElem, List.getElem_zip]
    rw [← Except.ok.inj h1]
    exact hd
  unfold checkOperation
  dsimp only
  rw [getI_of_some hrep, Except.ok_bind', hctx, Except.ok_bind', hap, Except.ok_bind', hst, Except.ok_bind',
    getI_of_some hrow, Except.ok_bind']
  unfold checkSharesToMessageSuccess
  simp only [if_true, Except.bind_eq_ok, Except.pure_eq', Except.ok.injEq, hexAt_ok]
  constructor
  · rintro ⟨bs, h1, eb, ⟨h, h2, h3⟩, ⟨⟩, ⟨a', h4, shs', h5, msg, h6, mb, h7, h8⟩, rfl⟩
    rw [ha] at h4
    cases h4
    rw [hdec bs h1] at h5
    cases h5
    rw [assertBytes_ok] at h8
    subst h8
    exact ⟨rfl, ⟨bs, h1⟩, msg, h, h6, h2, mb, h7, h3⟩
  · rintro ⟨rfl, ⟨bs, h1⟩, msg, h, h6, h2, mb, h7, h3⟩
    exact ⟨bs, h1, mb, ⟨h, h2, h3⟩, (), ⟨a, ha, shs, hdec bs h1, msg, h6, mb, h7, assertBytes_ok.2 rfl⟩, rfl⟩

theorem op_next (hctx : fromHex tv.ctx = .ok ctx) (hrep : tv.reports[r]? = some rep) {k j : ℕ} {st : VState}
    (hk : k + 1 < V.rounds) (hj : j < V.shares) (hst : S r j k = some st) {msg : VMsg}
    (hmsg : ∃ h b, rep.verifierMessages[k]? = some h ∧ fromHex h = .ok b ∧
      V.decodeVerifierMessage st b = .ok msg) :
    checkOperation V C tv S (.verifyNext (k + 1) j r true) = .ok S' ↔ ∃ st',
      (∃ sh row h, V.verifyNext ctx st msg = .ok (.cont st' sh) ∧
        rep.verifierShares[k + 1]? = some row ∧ row[j]? = some h ∧ Enc (V.encodeVerifierShare sh) h) ∧
      S' = S.put r j (k + 1) st' := by
  unfold checkOperation
  dsimp only
  rw [getI_of_some hrep, Except.ok_bind', hctx, Except.ok_bind', if_neg (by omega)]
  unfold checkVerifyNextCont VdafImpl.verifyNextTuple
  simp only [if_true, if_pos hk, Except.bind_eq_ok, Except.pure_eq', Except.ok.injEq, hexAt_ok, getI_eq_ok, Prod.exists,
    getState_ok, Nat.add_sub_cancel]
  constructor
  · rintro ⟨st1, ⟨-, h1⟩, mb, ⟨h, h2, h3⟩, row, h4, eb, ⟨h', h5, h6⟩, st2, ⟨msg', h7, st3, sh, ⟨out, h8, h9⟩, eb', h10,
      ⟨⟩, h11, rfl⟩, rfl⟩
    rw [hst] at h1
    cases h1
    obtain ⟨x, b, g1, g2, g3⟩ := hmsg
    rw [g1] at h2
    cases h2
    rw [g2] at h3
    cases h3
    rw [g3] at h7
    cases h7
    rw [assertBytes_ok] at h11
    subst h11
    cases out with
    | out o => cases h9
    | cont st4 sh4 =>
      cases h9
      exact ⟨_, ⟨sh, row, h', h8, h4, h5, eb', h10, h6⟩, rfl⟩
  · rintro ⟨st', ⟨sh, row, h', h8, h4, h5, eb', h10, h6⟩, rfl⟩
    obtain ⟨x, b, g1, g2, g3⟩ := hmsg
    exact ⟨st, ⟨hj, hst⟩, b, ⟨x, g1, g2⟩, row, h4, eb', ⟨h', h5, h6⟩, st', ⟨msg, g3, st', sh, ⟨_, h8, rfl⟩, eb',
      h10, (), assertBytes_ok.2 rfl, rfl⟩, rfl⟩

theorem op_out (hctx : fromHex tv.ctx = .ok ctx) (hrep : tv.reports[r]? = some rep) {k j : ℕ} {st : VState}
    (hk : k + 1 = V.rounds) (hj : j < V.shares) (hst : S r j k = some st) {msg : VMsg}
    (hmsg : ∃ h b, rep.verifierMessages[k]? = some h ∧ fromHex h = .ok b ∧ V.decodeVerifierMessage st b = .ok msg) :
    checkOperation V C tv S (.verifyNext V.rounds j r true) = .ok S' ↔ S' = S ∧
      ∃ o h, V.verifyNext ctx st msg = .ok (.out o) ∧ rep.outShares[j]? = some h ∧ Enc (C.encodeOutShare o) h := by
  unfold checkOperation
  dsimp only
  rw [getI_of_some hrep, Except.ok_bind', hctx, Except.ok_bind', if_neg (by omega), ← hk]
  unfold checkVerifyNextOut
  simp only [if_true, lt_irrefl, if_false, Except.bind_eq_ok, Except.pure_eq', Except.ok.injEq,
    hexAt_ok, getState_ok, Nat.add_sub_cancel]
  obtain ⟨x, b, g1, g2, g3⟩ := hmsg
  constructor
  · rintro ⟨st1, ⟨-, h1⟩, mb, ⟨h, h2, h3⟩, eb, ⟨h', h5, h6⟩, ⟨⟩, ⟨msg', h7, out, h8, h9⟩, rfl⟩
    rw [hst] at h1
    cases h1
    rw [g1] at h2
    cases h2
    rw [g2] at h3
    cases h3
    rw [g3] at h7
    cases h7
    cases out with
    | cont st4 sh4 => cases h9
    | out o =>
      dsimp only at h9
      rw [Except.bind_eq_ok] at h9
      obtain ⟨eb', h10, h11⟩ := h9
      rw [assertBytes_ok] at h11
      subst h11
      exact ⟨rfl, o, h', h8, h5, eb', h10, h6⟩
  · rintro ⟨rfl, o, h', h8, h5, eb', h10, h6⟩
    refine ⟨st, ⟨hj, hst⟩, b, ⟨x, g1, g2⟩, eb', ⟨h', h5, h6⟩, (), ⟨msg, g3, _, h8, ?_⟩, rfl⟩
    dsimp only
    rw [h10, Except.ok_bind']
    exact assertBytes_ok.2 rfl
end
end
end Vdaf.TestVectors
