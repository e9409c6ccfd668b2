import Verif.Spec.WireSizes
import Verif.Proofs.Sizes
import Verif.Proofs.PingPong

/-! The sizes of the messages in the ping-pong topology -/

namespace Vdaf
open Spec

namespace PingPong
variable {Meas AggParam PubShare InShare OutShare AggShare AggRes VState VShare VMsg : Type}
variable {V : VdafImpl Meas AggParam PubShare InShare OutShare AggShare AggRes VState VShare VMsg}

theorem encode_size {t : ℕ} {items : List Bytes} {b : Bytes} (h : encode t items = .ok b) :
    b.length = pingPongSize (items.map List.length) := by
  obtain ⟨-, -, rfl⟩ := (encode_iff t items b).1 h
  rw [List.length_cons, List.length_flatten, pingPongSize, List.map_map, List.map_map, Nat.add_comm]
  congr 3
  funext i
  simp [frame, natToLe_length]

theorem EncodesTo.length {n : ℕ} {r : Res Bytes} {b : Bytes} (h : EncodesTo n r) (hb : r = .ok b) : b.length = n := by
  obtain ⟨b', h1, h2⟩ := h
  rw [hb] at h1
  cases h1
  exact h2

variable (V) in
/-- What the sizes depend on: the verifier shares that a party sends, and the verifier messages that it computes from its
own share and from what it decodes -/
structure Local (a : AggParam) (S : Sizes) : Prop where
  share : ∀ k c n p j i r st sh, j < 2 → Held V k c a n p j i r st sh →
    EncodesTo (S.verifierShare r) (V.encodeVerifierShare sh)
  message : ∀ k c n p j i r st sh bs peer shs msg, j < 2 → Held V k c a n p j i r st sh →
    V.decodeVerifierShare st bs = .ok peer → shs = [sh, peer] ∨ shs = [peer, sh] →
    V.sharesToMessage c a shs = .ok msg → EncodesTo (S.verifierMessage r) (V.encodeVerifierMessage msg)

variable {aggParam : Bytes} {a : AggParam} {S : Sizes} {k c n : Bytes} {p : PubShare} {j : ℕ} {i : InShare}

/-- The invariant -/
def Sized (V : VdafImpl Meas AggParam PubShare InShare OutShare AggShare AggRes VState VShare VMsg) (S : Sizes)
    (s : PingPongState VState VShare OutShare) : Prop := (outbound s).map List.length = outboundSize S V.rounds s

theorem sized_transition (L : Local V a S) (hj : j < 2) {r : ℕ} {st : VState} {sh peer : VShare} {bs : Bytes} {shs : List VShare}
    (h : Held V k c a n p j i r st sh) (hp : V.decodeVerifierShare st bs = .ok peer)
    (hs : shs = [sh, peer] ∨ shs = [peer, sh]) {s : PingPongState VState VShare OutShare}
    (ht : transition V c a shs st r = .ok s) : Sized V S s := by
  obtain ⟨msg, bm, out, h1, h2, h3, h4⟩ := transition_ok ht
  have hm := EncodesTo.length (L.message _ _ _ _ _ _ _ _ _ _ _ _ _ hj h hp hs h1) h2
  unfold Sized
  rcases h4 with ⟨hr, b, hb, rfl⟩ | ⟨hr, st', sh', bs', b, rfl, hbs, hb, rfl⟩
  · simp only [outbound, outboundSize, Option.map_some, encode_size hb, List.map_cons, List.map_nil, hm, ← hr,
      Nat.add_sub_cancel]
  · simp only [outbound, outboundSize, Option.map_some, encode_size hb, List.map_cons, List.map_nil, hm,
      EncodesTo.length (L.share _ _ _ _ _ _ _ _ _ hj (h.next h3)) hbs]

theorem sized_continued (L : Local V a S) (ha : V.decodeAggParam aggParam = .ok a) (hj : j < 2) {r : ℕ} {st : VState}
    {sh : VShare} (h : Held V k c a n p j i r st sh) {isLeader : Bool} {m : Bytes}
    {s : PingPongState VState VShare OutShare} (hs : continued V isLeader c aggParam st r m = .ok s) : Sized V S s := by
  by_cases hne : s = .rejected
  · subst hne; rfl
  obtain ⟨t, items, bm, msg, out, h1, h2, h3, h4, h5, h6⟩ := continued_ok hs hne
  rcases h6 with ⟨hr, ht, st', sh', bs, peer, a'', rfl, _, g1, g2, h7⟩ | ⟨hr, ht, rfl⟩
  · rw [ha] at g2
    cases g2
    refine sized_transition L hj (h.next h5) g1 ?_ h7
    cases isLeader
    · exact .inr rfl
    · exact .inl rfl
  · rfl

theorem sized_receive (L : Local V a S) (ha : V.decodeAggParam aggParam = .ok a) (hj : j < 2) (isLeader : Bool) (ms : List Bytes)
    {s s' : PingPongState VState VShare OutShare} (hi : Inv V k c a n p j i s) (h : Sized V S s)
    (hs : Spec.receive V isLeader c aggParam s ms = .ok s') : Sized V S s' := by
  induction ms generalizing s with
  | nil =>
    unfold Spec.receive at hs
    simp only [Except.ok.injEq] at hs
    subst hs; exact h
  | cons m ms ih =>
    cases s with
    | continued st r b =>
      unfold Spec.receive at hs
      rw [Except.bind_eq_ok] at hs
      obtain ⟨s1, h1, h2⟩ := hs
      have hc : continued V isLeader c aggParam st r m = .ok s1 := by
        cases isLeader
        · simpa [helperContinued] using h1
        · simpa [leaderContinued] using h1
      obtain ⟨sh, hh⟩ := id hi
      exact ih (inv_continued hi hc) (sized_continued L ha hj hh hc) h2
    | _ =>
      unfold Spec.receive at hs
      simp only [Except.ok.injEq] at hs
      subst hs; exact h

theorem wireSizes (L : Local V a S) (ha : V.decodeAggParam aggParam = .ok a) : HasWireSizes V aggParam S := by
  constructor
  · intro vk ctx nonce pub ish inbounds s s' h hr
    by_cases hne : s = .rejected
    · subst hne
      cases inbounds <;> (simp only [Spec.receive, Except.ok.injEq] at hr; subst hr; rfl)
    obtain ⟨a', p', i', st, sh, bs, b, h1, h2, h3, h4, h5, h6, rfl⟩ := leaderInit_ok h hne
    rw [ha] at h1
    cases h1
    have hh : Held V vk ctx a nonce p' 0 i' 0 st sh := .init h4
    refine sized_receive L ha (by decide) true inbounds (k := vk) (n := nonce) (p := p') (j := 0) (i := i')
      (s := .continued st 0 b) ⟨sh, hh⟩ ?_ hr
    simp only [Sized, outbound, outboundSize, Option.map_some, encode_size h6, List.map_cons, List.map_nil,
      EncodesTo.length (L.share _ _ _ _ _ _ _ _ _ (by decide) hh) h5]
  · intro vk ctx nonce pub ish inbound inbounds s s' h hr
    by_cases hne : s = .rejected
    · subst hne
      cases inbounds <;> (simp only [Spec.receive, Except.ok.injEq] at hr; subst hr; rfl)
    obtain ⟨a', p', i', st, sh, items, bs, peer, h1, h2, h3, h4, h5, h6, h7, h8⟩ := helperInit_ok h hne
    rw [ha] at h1
    cases h1
    have hh : Held V vk ctx a nonce p' 1 i' 0 st sh := .init h4
    exact sized_receive L ha (by decide) false inbounds (k := vk) (n := nonce) (p := p') (j := 1) (i := i')
      (inv_transition hh h8) (sized_transition L (by decide) hh h7 (.inr rfl) h8) hr

end PingPong

namespace Prio3
variable {F : Type} [NttField F] {Meas Agg : Type} {prims : Prims} {fuel : ℕ}
  {P : Prio3 (XofTurboShake128 prims fuel) F Meas Agg} {fn : Fun Meas Agg}

theorem local_sizes (h2 : P.shares = 2) {C} {valid : Meas → Prop} {e shares proofs : ℕ} {L : Lens}
    (H : HasSizes P.vdaf C valid () (prio3Sizes e shares proofs L)) (hj : L.joint = (lens P).joint) :
    PingPong.Local P.vdaf () (prio3Sizes e shares proofs L) := by
  refine ⟨fun k c n p j i r st sh hj h => H.verifierShare _ _ _ _ _ _ _ _ _ ?_ h, ?_⟩
  · show j < P.shares
    omega
  · intro k c n p j i r st sh bs peer shs msg _ _ _ _ h
    refine ⟨_, rfl, ?_⟩
    show _ = if L.joint then 32 else 0
    rw [hj]
    exact optBytes_length (sharesToMessage_shape h)

end Prio3

namespace Poplar1
variable {P : Poplar1} {prims : Prims} {fuel : ℕ}

theorem vecAddF_len {u v w : FieldVec} (h : vecAddF u v = .ok w) : u.2.length = v.2.length := by
  unfold vecAddF at h
  rw [Except.bind_eq_ok] at h; obtain ⟨x, h, -⟩ := h
  unfold vecAdd at h
  split at h
  · cases h
  · rename_i hl
    simpa [castVec] using hl

theorem local_sizes (hf : fuel < 2 ^ 120) (hv : P.idpf.valueLen = 2) {a : Poplar1AggParam} (hl : a.1 < P.idpf.bits) :
    PingPong.Local (P.vdaf prims fuel) a (poplar1Sizes P.idpf.bits a.1 a.2.length) := by
  have H := hasSizes (prims := prims) hf hv hl
  refine ⟨fun k c n p j i r st sh hj h => H.verifierShare _ _ _ _ _ _ _ _ _ hj h, ?_⟩
  intro k c n p j i r st sh bs peer shs msg _ h hp hs hm
  obtain ⟨h1, -, h3, h4⟩ := held_shape h
  replace hp : P.decodeAtLevel st.level bs = .ok peer := hp
  have hk := (decodeAtLevel_iff.1 hp).1
  rw [h1] at hk
  replace hm : sharesToMessage c a shs = .ok msg := hm
  have hlen : peer.2.length = sh.2.length := by
    have h0 := hm
    unfold sharesToMessage at h0
    rcases hs with rfl | rfl
    · dsimp only at h0
      rw [Except.bind_eq_ok] at h0; obtain ⟨w, h0, -⟩ := h0
      exact (vecAddF_len h0).symm
    · dsimp only at h0
      rw [Except.bind_eq_ok] at h0; obtain ⟨w, h0, -⟩ := h0
      exact vecAddF_len h0
  have h5 : (r = 0 ∧ sh.2.length = 3) ∨ (r = 1 ∧ sh.2.length = 1) := by
    rcases h4 with ⟨rfl, -, h4⟩ | ⟨rfl, -, h4⟩
    · exact .inl ⟨rfl, h4⟩
    · exact .inr ⟨rfl, h4⟩
  refine sharesToMessage_size (ctx := c) (a := a) hl (fun v hv => ?_) hm
  have : v = sh ∨ v = peer := by
    rcases hs with rfl | rfl
    · simpa using hv
    · simpa [or_comm] using hv
  rcases this with rfl | rfl
  · exact ⟨h3, h5⟩
  · exact ⟨hk, by rw [hlen]; exact h5⟩

end Poplar1
end Vdaf
