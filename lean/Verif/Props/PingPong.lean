import Verif.Proofs.PingPongInst
import Verif.Props.Xof

/-!
# Properties C39 - C41: the ping-pong topology

Specification vocabulary (`Verif/Spec/PingPong.lean`):

* `Spec.broadcast`: the execution in which both Aggregators broadcast their verifier shares, as in `run_vdaf`
  (`C39_broadcast`);
* `Spec.exchange V k ctx ap nonce ps i0 i1 n`: both parties initialize and at most `n` messages are delivered; the
  states of Leader and Helper and the number of messages sent;
* `Spec.receive V isLeader ctx ap s inbound`: a party in state `s` receives the byte strings `inbound`;
* `Spec.Held V k ctx a nonce pub j s r st sh`: Aggregator `j` with the input share `s` reaches round `r`, by `verify_init`
  and `r` successful `verify_next`, with state `st` and verifier share `sh`;
* `Spec.PingPongReady`: what is needed from the VDAF.
-/

namespace Vdaf
open PingPong

section
variable {Meas AggParam PubShare InShare OutShare AggShare AggRes VState VShare VMsg : Type}
variable (V : VdafImpl Meas AggParam PubShare InShare OutShare AggShare AggRes VState VShare VMsg)

/-! ## C41 -/

/-- C41: the bytes that `encode` produces, and when it raises. -/
theorem C41_layout (t : ℕ) (items : List Bytes) (b : Bytes) : encode t items = .ok b ↔
    t < 256 ∧ (∀ i ∈ items, i.length < 2 ^ 32) ∧ b = Spec.pingPongMessage t items := by
  rw [encode_iff]
  refine and_congr_right fun _ => and_congr_right fun h => ?_
  unfold Spec.pingPongMessage
  rw [List.map_congr_left fun i hi => frame_eq i (h i hi)]

/-- C41: round trip. -/
theorem C41_round_trip (t : ℕ) (items : List Bytes) (ht : Spec.pingPongItems t = some items.length)
    (hs : ∀ i ∈ items, i.length < 2 ^ 32) : ∃ b, encode t items = .ok b ∧ decode b = .ok (t, items) := by
  have h256 : t < 256 := by
    unfold Spec.pingPongItems at ht
    split at ht <;> simp_all
  have h := (C41_layout t items _).2 ⟨h256, hs, rfl⟩
  exact ⟨_, h, (decode_iff _ _ _).2 ⟨ht, h⟩⟩

/-- C41: `decode` accepts exactly the encodings of messages with the right number of items, and returns the
message. -/
theorem C41_canonical (b : Bytes) (t : ℕ) (items : List Bytes) : decode b = .ok (t, items) ↔
    Spec.pingPongItems t = some items.length ∧ encode t items = .ok b :=
  decode_iff b t items

example : encode 1 [[10, 11], []] = .ok [1, 0, 0, 0, 2, 10, 11, 0, 0, 0, 0] ∧
    decode [1, 0, 0, 0, 2, 10, 11, 0, 0, 0, 0] = .ok (1, [[10, 11], []]) ∧
    (∃ e, decode [1, 0, 0, 0, 2, 10, 11, 0, 0, 0, 0, 0] = .error e) ∧
    (∃ e, decode [1, 0, 0, 0, 2, 10, 11] = .error e) ∧ (∃ e, decode [3, 0, 0, 0, 0] = .error e) :=
  ⟨by decide +kernel, by decide +kernel, ⟨_, rfl⟩, ⟨_, rfl⟩, ⟨_, rfl⟩⟩

/-! ## C40 -/

/-- C40: nothing raises; the only other possibility is that a computation of the VDAF does not terminate. -/
theorem C40_never_raises (verifyKey ctx aggParam nonce publicShare inputShare inbound : Bytes) :
    ((∃ s, leaderInit V verifyKey ctx aggParam nonce publicShare inputShare = .ok s) ∨
      leaderInit V verifyKey ctx aggParam nonce publicShare inputShare = .error .fuel) ∧
    ((∃ s, helperInit V verifyKey ctx aggParam nonce publicShare inputShare inbound = .ok s) ∨
      helperInit V verifyKey ctx aggParam nonce publicShare inputShare inbound = .error .fuel) ∧
    ∀ isLeader s inbounds, (∃ s', Spec.receive V isLeader ctx aggParam s inbounds = .ok s') ∨
      Spec.receive V isLeader ctx aggParam s inbounds = .error .fuel := by
  refine ⟨?_, ?_, fun isLeader s ms => receive_ok_or_fuel isLeader ctx aggParam ms s⟩
  · unfold leaderInit
    rcases catchAll_cases (x := _) with h | ⟨h, _⟩
    · exact .inl h
    · exact .inr h
  · unfold helperInit
    rcases catchAll_cases (x := _) with h | ⟨h, _⟩
    · exact .inl h
    · exact .inr h

/-- C40: if the computations of the VDAF terminate, then ping-ponging always returns a state. -/
theorem C40_total (hT : Spec.Terminates V)
    (verifyKey ctx aggParam nonce publicShare inputShare inbound : Bytes) :
    (∃ s, leaderInit V verifyKey ctx aggParam nonce publicShare inputShare = .ok s) ∧
    (∃ s, helperInit V verifyKey ctx aggParam nonce publicShare inputShare inbound = .ok s) ∧
    ∀ isLeader s inbounds, ∃ s', Spec.receive V isLeader ctx aggParam s inbounds = .ok s' := by
  obtain ⟨h1, h2, h3⟩ := C40_never_raises V verifyKey ctx aggParam nonce publicShare inputShare inbound
  exact ⟨h1.resolve_right (leaderInit_ne_fuel hT _ _ _ _ _ _), h2.resolve_right (helperInit_ne_fuel hT _ _ _ _ _ _ _),
    fun isLeader s ms => (h3 isLeader s ms).resolve_right (receive_ne_fuel hT isLeader ctx aggParam ms s)⟩

/-- C40: a Leader that, whatever it received, ends in `Finished` or `FinishedWithOutbound` with the result `out`
completed all the rounds: `out` is what `verify_next` returned in the last round, for the state the
Leader reached, from its own input share, by `verify_init` and successful `verify_next` calls in all the
previous rounds. -/
theorem C40_leader_output (verifyKey ctx aggParam nonce publicShare inputShare : Bytes) (inbounds : List Bytes)
    (s s' : PingPongState VState VShare OutShare) (out : Next VState VShare OutShare)
    (hinit : leaderInit V verifyKey ctx aggParam nonce publicShare inputShare = .ok s)
    (hrecv : Spec.receive V true ctx aggParam s inbounds = .ok s')
    (hfin : s' = .finished out ∨ ∃ m, s' = .finishedWithOutbound out m) :
    ∃ a pub i r st sh msg, V.decodeAggParam aggParam = .ok a ∧ V.decodePublicShare publicShare = .ok pub ∧
      V.decodeInputShare 0 inputShare = .ok i ∧ r + 1 = V.rounds ∧
      Spec.Held V verifyKey ctx a nonce pub 0 i r st sh ∧ V.verifyNext ctx st msg = .ok out := by
  by_cases hne : s = .rejected
  · subst hne
    cases inbounds <;> (simp only [Spec.receive, Except.ok.injEq] at hrecv; subst hrecv; simp at hfin)
  obtain ⟨a, pub, i, st, sh, bs, b, h1, h2, h3, h4, h5, h6, rfl⟩ := leaderInit_ok hinit hne
  have := inv_receive (k := verifyKey) (a := a) (n := nonce) (p := pub) (j := 0) (i := i) true inbounds
    (s := .continued st 0 b) ⟨sh, .init h4⟩ hrecv
  rcases hfin with rfl | ⟨m, rfl⟩
  · obtain ⟨r, st', sh', msg, g1, g2, g3⟩ := this
    exact ⟨a, pub, i, r, st', sh', msg, h1, h2, h3, g1, g2, g3⟩
  · obtain ⟨r, st', sh', msg, g1, g2, g3⟩ := this
    exact ⟨a, pub, i, r, st', sh', msg, h1, h2, h3, g1, g2, g3⟩

/-- C40: the same for the Helper. -/
theorem C40_helper_output (verifyKey ctx aggParam nonce publicShare inputShare inbound : Bytes)
    (inbounds : List Bytes) (s s' : PingPongState VState VShare OutShare) (out : Next VState VShare OutShare)
    (hinit : helperInit V verifyKey ctx aggParam nonce publicShare inputShare inbound = .ok s)
    (hrecv : Spec.receive V false ctx aggParam s inbounds = .ok s')
    (hfin : s' = .finished out ∨ ∃ m, s' = .finishedWithOutbound out m) :
    ∃ a pub i r st sh msg, V.decodeAggParam aggParam = .ok a ∧ V.decodePublicShare publicShare = .ok pub ∧
      V.decodeInputShare 1 inputShare = .ok i ∧ r + 1 = V.rounds ∧
      Spec.Held V verifyKey ctx a nonce pub 1 i r st sh ∧ V.verifyNext ctx st msg = .ok out := by
  by_cases hne : s = .rejected
  · subst hne
    cases inbounds <;> (simp only [Spec.receive, Except.ok.injEq] at hrecv; subst hrecv; simp at hfin)
  obtain ⟨a, pub, i, st, sh, items, bs, peer, h1, h2, h3, h4, h5, h6, h7, h8⟩ := helperInit_ok hinit hne
  have := inv_receive (k := verifyKey) (a := a) (n := nonce) (p := pub) (j := 1) (i := i) false inbounds
    (inv_transition (.init h4) h8) hrecv
  rcases hfin with rfl | ⟨m, rfl⟩
  · obtain ⟨r, st', sh', msg, g1, g2, g3⟩ := this
    exact ⟨a, pub, i, r, st', sh', msg, h1, h2, h3, g1, g2, g3⟩
  · obtain ⟨r, st', sh', msg, g1, g2, g3⟩ := this
    exact ⟨a, pub, i, r, st', sh', msg, h1, h2, h3, g1, g2, g3⟩

/-- The transition of either party in the state `Continued(st, r, _)` -/
def step (isLeader : Bool) (ctx aggParam : Bytes) (st : VState) (r : ℕ) (inbound : Bytes) :
    Res (PingPongState VState VShare OutShare) :=
  if isLeader then leaderContinued V ctx aggParam st r inbound else helperContinued V ctx aggParam st r inbound

theorem step_eq (isLeader : Bool) (ctx aggParam : Bytes) (st : VState) (r : ℕ) (inbound : Bytes) :
    step V isLeader ctx aggParam st r inbound = continued V isLeader ctx aggParam st r inbound := by
  cases isLeader <;> rfl

/-- C40: which inbound messages a party in round `r` rejects: malformed ones and initialize messages, at once; finish
messages before the last round, continue messages in the last round and unknown types, possibly after a
computation of the VDAF that does not terminate. -/
theorem C40_rejects (isLeader : Bool) (ctx aggParam : Bytes) (st : VState) (r : ℕ) (inbound : Bytes) :
    ((∀ x, decode inbound ≠ .ok x) → step V isLeader ctx aggParam st r inbound = .ok .rejected) ∧
    (∀ items, decode inbound = .ok (0, items) → step V isLeader ctx aggParam st r inbound = .ok .rejected) ∧
    (∀ t items, decode inbound = .ok (t, items) → (t = 1 → ¬ r + 1 < V.rounds) → (t = 2 → r + 1 ≠ V.rounds) →
      step V isLeader ctx aggParam st r inbound = .ok .rejected ∨
      step V isLeader ctx aggParam st r inbound = .error .fuel) := by
  simp only [step_eq]
  refine ⟨fun h => ?_, fun items h => ?_, fun t items h h1 h2 => ?_⟩
  · unfold continued
    rcases hd : decode inbound with e | x
    · have : e ≠ .fuel := fun he => decode_ne_fuel inbound (by rw [hd, he])
      cases e <;> simp_all [catchAll]
    · exact absurd hd (h x)
  · unfold continued
    rw [h]
    rfl
  · rcases catchAll_cases (continued V isLeader ctx aggParam st r inbound) with _ | ⟨_, hf⟩
    · by_cases hok : ∃ s, continued V isLeader ctx aggParam st r inbound = .ok s
      · obtain ⟨s, hs⟩ := hok
        left
        by_contra hne
        have hne : s ≠ .rejected := fun he => hne (by rw [hs, he])
        obtain ⟨t', items', bm, msg, out, g1, g2, g3, g4, g5, g6⟩ := continued_ok hs hne
        rw [h] at g1
        simp only [Except.ok.injEq, Prod.mk.injEq] at g1
        obtain ⟨rfl, rfl⟩ := g1
        rcases g6 with ⟨hr, ht, _⟩ | ⟨hr, ht, _⟩
        · exact h1 ht hr
        · exact h2 ht hr
      · right
        unfold continued at hok ⊢
        rcases catchAll_cases (x := _) with hx | ⟨hx, _⟩
        · exact absurd hx hok
        · exact hx
    · exact .inr hf

/-- C40: the Helper's first message must be an initialize message. -/
theorem C40_helper_init_rejects (verifyKey ctx aggParam nonce publicShare inputShare inbound : Bytes)
    (h : ∀ items, decode inbound ≠ .ok (0, items)) :
    helperInit V verifyKey ctx aggParam nonce publicShare inputShare inbound = .ok .rejected ∨
    helperInit V verifyKey ctx aggParam nonce publicShare inputShare inbound = .error .fuel := by
  rcases (C40_never_raises V verifyKey ctx aggParam nonce publicShare inputShare inbound).2.1 with ⟨s, hs⟩ | hf
  · left
    by_contra hne
    obtain ⟨_, _, _, _, _, items, _, _, _, _, _, _, hd, _⟩ := helperInit_ok hs fun he => hne (by rw [hs, he])
    exact h items hd
  · exact .inr hf

/-- C40: a party finishes on an inbound message exactly in the last round, on a finish message whose verifier message
`verify_next` accepts for its state. -/
theorem C40_finishes_iff (isLeader : Bool) (ctx aggParam : Bytes) (st : VState) (r : ℕ) (inbound : Bytes)
    (out : Next VState VShare OutShare) :
    step V isLeader ctx aggParam st r inbound = .ok (.finished out) ↔
      r + 1 = V.rounds ∧ ∃ m msg, decode inbound = .ok (2, [m]) ∧ V.decodeVerifierMessage st m = .ok msg ∧
        V.verifyNext ctx st msg = .ok out := by
  rw [step_eq]
  constructor
  · intro h
    obtain ⟨t, items, bm, msg, out', g1, g2, g3, g4, g5, g6⟩ := continued_ok h (by simp)
    rcases g6 with ⟨_, _, st', sh', bs, peer, a', _, _, _, _, ht⟩ | ⟨hr, rfl, ho⟩
    · obtain ⟨_, _, _, _, _, _, hx⟩ := transition_ok ht
      rcases hx with ⟨_, _, _, hx⟩ | ⟨_, _, _, _, _, _, _, _, hx⟩ <;> cases hx
    · cases ho
      refine ⟨hr, bm, msg, ?_, g4, g5⟩
      have hl := ((decode_iff _ _ _).1 g1).1
      simp only [Spec.pingPongItems, Option.some.injEq] at hl
      obtain ⟨y, rfl⟩ := List.length_eq_one_iff.1 hl.symm
      simp only [List.length_cons, List.length_nil, zero_add, Nat.lt_add_one, getElem?_pos, List.getElem_cons_zero,
        Option.some.injEq] at g3
      rw [g1, g3]
  · rintro ⟨hr, m, msg, hd, hm, hn⟩
    unfold continued
    rw [hd]
    simp [getI, hm, hn, hr, catchAll]

/-! ## C39 -/

/-- The output shares of a report in `run_vdaf` are those of `Spec.broadcast` for the shares of `shard`. -/
theorem C39_broadcast (verifyKey : Bytes) (aggParam : AggParam) (ctx : Bytes) (m : Meas) (nonce rand : Bytes) :
    Spec.outShares V verifyKey aggParam ctx (m, nonce, rand) = (do
      let (pub, inputShares) ← V.shard ctx m nonce rand
      Spec.broadcast V verifyKey aggParam ctx nonce pub inputShares) :=
  outShares_eq V verifyKey aggParam ctx m nonce rand

section
variable (verifyKey ctx nonce ap ps i0 i1 : Bytes) (a : AggParam) (pub : PubShare) (s0 s1 : InShare)

/-- C39: if the broadcast execution succeeds with the output shares `o0` and `o1`, then after `ROUNDS + 1` messages
the Leader is finished with `o0` and the Helper with `o1`, and the last message is the Helper's iff `ROUNDS`
is odd. -/
theorem C39_success (hshares : V.shares = 2) (hrounds : 1 ≤ V.rounds)
    (hready : Spec.PingPongReady V verifyKey ctx a nonce pub s0 s1)
    (hap : V.decodeAggParam ap = .ok a) (hps : V.decodePublicShare ps = .ok pub)
    (hi0 : V.decodeInputShare 0 i0 = .ok s0) (hi1 : V.decodeInputShare 1 i1 = .ok s1)
    (n : ℕ) (hn : V.rounds ≤ n) (o : List OutShare)
    (h : Spec.broadcast V verifyKey a ctx nonce pub [s0, s1] = .ok o) :
    ∃ o0 o1 m, o = [o0, o1] ∧ Spec.exchange V verifyKey ctx ap nonce ps i0 i1 n = .ok
      (if V.rounds % 2 = 1 then (.finished (.out o0), .finishedWithOutbound (.out o1) m, V.rounds + 1)
        else (.finishedWithOutbound (.out o0) m, .finished (.out o1), V.rounds + 1)) := by
  obtain ⟨os, h1, m, hm⟩ := (exchange_main (s := fun p => if p then s0 else s1) (ready_of hready) hshares hrounds
    hap hps hi0 hi1 n hn).1 o h
  refine ⟨os true, os false, m, h1, ?_⟩
  rw [hm]
  congr 1
  rcases Nat.mod_two_eq_zero_or_one V.rounds with h | h
  · simp [h, arr]
  · simp [h, arr]

/-- C39: if the broadcast execution fails, then one of the parties rejects (or a computation of the VDAF does not
terminate). -/
theorem C39_failure (hshares : V.shares = 2) (hrounds : 1 ≤ V.rounds)
    (hready : Spec.PingPongReady V verifyKey ctx a nonce pub s0 s1)
    (hap : V.decodeAggParam ap = .ok a) (hps : V.decodePublicShare ps = .ok pub)
    (hi0 : V.decodeInputShare 0 i0 = .ok s0) (hi1 : V.decodeInputShare 1 i1 = .ok s1)
    (n : ℕ) (hn : V.rounds ≤ n) (e : Err)
    (h : Spec.broadcast V verifyKey a ctx nonce pub [s0, s1] = .error e) :
    (∃ l h c, Spec.exchange V verifyKey ctx ap nonce ps i0 i1 n = .ok (l, h, c) ∧ (l = .rejected ∨ h = .rejected)) ∨
    Spec.exchange V verifyKey ctx ap nonce ps i0 i1 n = .error .fuel :=
  ((exchange_main (s := fun p => if p then s0 else s1) (ready_of hready) hshares hrounds
    hap hps hi0 hi1 n hn).2 e h).symm
end
end

/-- C39: every instance of Prio3 with two Aggregators and any circuit of the library, whose verifier shares have less
than `2^32` bytes, meets the conditions, for all public shares and input shares. -/
theorem C39_prio3 {F : Type} [NttField F] {Meas Agg : Type} {prims : Prims} {fuel : ℕ}
    {P : Prio3 (XofTurboShake128 prims fuel) F Meas Agg} {fn : Spec.Fun Meas Agg} (I : Spec.Instance P fn)
    (hsize : PyField.encSize F * (P.flp.verifierLen * P.proofs) + 32 < 2 ^ 32)
    (verifyKey ctx nonce : Bytes) (pub : Option (List Bytes)) (s0 s1 : Prio3InputShare F) :
    P.vdaf.rounds = 1 ∧ Spec.PingPongReady P.vdaf verifyKey ctx () nonce pub s0 s1 :=
  ⟨rfl, Prio3.pingPongReady I.wf hsize verifyKey ctx nonce pub s0 s1⟩

/-- C39: Poplar1 meets the conditions, for all aggregation parameters, public shares and input shares. -/
theorem C39_poplar1 (prims : Prims) (fuel : ℕ) (P : Poplar1) (verifyKey ctx nonce : Bytes) (a : Poplar1AggParam)
    (pub : List CorrectionWord) (s0 s1 : Poplar1InputShare) :
    (P.vdaf prims fuel).shares = 2 ∧ (P.vdaf prims fuel).rounds = 2 ∧
      Spec.PingPongReady (P.vdaf prims fuel) verifyKey ctx a nonce pub s0 s1 :=
  ⟨rfl, rfl, Poplar1.pingPongReady verifyKey ctx nonce a pub s0 s1⟩

/-! ## A VDAF with any number of rounds

Used only in the examples. It follows `PingPongTester` in poc/tests/test_vdaf_ping_pong.py:13-150 and differs from it:
verifier shares and messages are round numbers instead of strings such as "verify round 1", the public share is
empty and is not checked, and the second input share is `m + 1` instead of `m` so that the two output shares can be
told apart. -/

def tester (rounds : ℕ) : VdafImpl ℕ ℕ Unit ℕ ℕ ℕ ℕ (ℕ × ℕ) ℕ ℕ where
  id := 0xFFFFFFFF
  verifyKeySize := 0
  nonceSize := 0
  randSize := 0
  rounds := rounds
  shares := 2
  shard _ m _ _ := .ok ((), [m, m + 1])
  isValid _ previous := .ok (previous.length == 0)
  verifyInit _ _ _ _ _ _ s := .ok ((0, s), 0)
  sharesToMessage _ _ shares :=
    match shares with
    | [] => .error .index
    | x :: xs => if xs.all (· == x) then .ok x else .error (.value "unexpected verifier share")
  verifyNext _ st msg :=
    if msg ≠ st.1 then .error (.value "unexpected verifier message")
    else if st.1 + 1 = rounds then .ok (.out st.2) else .ok (.cont (st.1 + 1, st.2) (st.1 + 1))
  aggInit _ := .ok 0
  aggUpdate _ a o := .ok (a + o)
  merge _ _ := .error .notImplemented
  unshard a shares _ := .ok (a * shares.sum / 2)
  encodeAggParam a := toBeBytes a 8
  decodeAggParam b := .ok (fromBeBytes b)
  encodePublicShare _ := .ok []
  decodePublicShare _ := .ok ()
  encodeInputShare s := toBeBytes s 8
  decodeInputShare _ b := .ok (fromBeBytes b)
  encodeVerifierShare s := toBeBytes s 8
  decodeVerifierShare _ b := .ok (fromBeBytes b)
  encodeVerifierMessage m := toBeBytes m 8
  decodeVerifierMessage _ b := .ok (fromBeBytes b)

theorem tester_held {rounds : ℕ} {k ctx n : Bytes} {a j s : ℕ} {r : ℕ} {st : ℕ × ℕ} {sh : ℕ}
    (h : Spec.Held (tester rounds) k ctx a n () j s r st sh) : st.1 = r ∧ sh = r ∧ (1 ≤ rounds → r < rounds) := by
  induction h with
  | init h => cases h; exact ⟨rfl, rfl, id⟩
  | next h1 h ih =>
    obtain ⟨g1, g2, g3⟩ := ih
    simp only [tester] at h
    split at h
    · cases h
    · split at h
      · cases h
      · cases h
        exact ⟨by rw [g1], by rw [g1], by omega⟩

-- the conditions of C39 hold for any number of rounds
example (rounds : ℕ) (h1 : 1 ≤ rounds) (h2 : rounds < 2 ^ 64) (k ctx n : Bytes) (a s0 s1 : ℕ) :
    Spec.PingPongReady (tester rounds) k ctx a n () s0 s1 where
  last r st sh msg out hh hr hn := by
    have : st.1 = r := hh.elim (fun h => (tester_held h).1) fun h => (tester_held h).1
    simp only [tester] at hn
    split at hn
    · cases hn
    · split at hn
      · cases hn
        simp only [reduceCtorEq, exists_false, iff_false]
        show ¬ (r + 1 < rounds); omega
      · cases hn
        have : r < rounds := hr
        exact ⟨fun _ => ⟨_, _, rfl⟩, fun _ => by show r + 1 < rounds; omega⟩
  share r st0 sh0 st1 sh1 hh0 hh1 := by
    obtain ⟨-, e0, l0⟩ := tester_held hh0
    obtain ⟨-, e1, l1⟩ := tester_held hh1
    have hr : r < 256 ^ 8 := by have := l0 h1; norm_num at h2 ⊢; omega
    have hb := toBeBytes_nat hr
    have : ∃ b, toBeBytes r 8 = .ok b ∧ Spec.Fits32 b ∧ (Except.ok (fromBeBytes b) : Res ℕ) = .ok r := by
      refine ⟨_, hb, ?_, ?_⟩
      · rw [Spec.Fits32, toBeBytes_length hb]; norm_num
      · have := fromBe_toBe hb
        simpa using this
    subst e0
    subst e1
    exact ⟨this, this⟩
  message r st0 sh0 st1 sh1 msg hh0 hh1 hm := by
    obtain ⟨-, e0, l0⟩ := tester_held hh0
    have hmsg : msg = r := by
      simp only [tester] at hm
      split at hm
      · cases hm; exact e0
      · cases hm
    have hr : msg < 256 ^ 8 := by have := l0 h1; norm_num at h2 ⊢; omega
    have hb := toBeBytes_nat hr
    refine ⟨_, hb, ?_, ?_, ?_⟩
    · rw [Spec.Fits32, toBeBytes_length hb]; norm_num
    · have := fromBe_toBe hb
      simpa [tester] using this
    · have := fromBe_toBe hb
      simpa [tester] using this

-- nothing diverges
example (rounds : ℕ) : Spec.Terminates (tester rounds) where
  decodeAggParam := by simp [tester]
  decodePublicShare := by simp [tester]
  decodeInputShare := by simp [tester]
  verifyInit := by simp [tester]
  sharesToMessage c a s := by
    simp only [tester]
    split
    · simp
    · split <;> simp
  verifyNext c s m := by
    simp only [tester]
    split
    · simp
    · split <;> simp
  encodeVerifierShare s := by
    simp only [tester, toBeBytes]
    split <;> simp
  decodeVerifierShare := by simp [tester]
  encodeVerifierMessage s := by
    simp only [tester, toBeBytes]
    split <;> simp
  decodeVerifierMessage := by simp [tester]

/-- What one sees of the end of an exchange: how the parties ended, with what output shares, after how many
messages -/
def summary {VState VShare OutShare : Type} (x : Res (Spec.Exchange VState VShare OutShare)) :
    String × Option OutShare × String × Option OutShare × ℕ :=
  let name := fun s : PingPongState VState VShare OutShare =>
    match s with
    | .start => "Start" | .continued _ _ _ => "Continued" | .finished _ => "Finished"
    | .finishedWithOutbound _ _ => "FinishedWithOutbound" | .rejected => "Rejected"
  match x with
  | .ok (l, h, n) => (name l, Spec.outShare l, name h, Spec.outShare h, n)
  | .error _ => ("", none, "", none, 0)

-- exchanges of odd and even length, and the broadcast execution
example : summary (Spec.exchange (tester 3) [] [] [0] [] [] [7] [8] 9) =
      ("Finished", some 7, "FinishedWithOutbound", some 8, 4) ∧
    summary (Spec.exchange (tester 4) [] [] [0] [] [] [7] [8] 9) =
      ("FinishedWithOutbound", some 7, "Finished", some 8, 5) ∧
    Spec.broadcast (tester 4) [] 0 [] [] () [7, 8] = .ok [7, 8] := by decide +kernel

-- Poplar1: a report is accepted; with a broken correction word the Leader's first transition is rejected
example : ((do
    let P ← Poplar1.init 1
    let V := P.vdaf toyPrims 40
    let nonce := List.replicate 16 3
    let key := List.replicate 32 1
    let (pub, ish) ← P.shard toyPrims 40 [1] [true] nonce (List.replicate 128 7)
    let s0 ← getI ish 0
    let s1 ← getI ish 1
    let ap ← V.encodeAggParam (0, [[false], [true]])
    let ps ← V.encodePublicShare pub
    let i0 ← V.encodeInputShare s0
    let i1 ← V.encodeInputShare s1
    let outs ← Spec.broadcast V key (0, [[false], [true]]) [1] nonce pub [s0, s1]
    let good := summary (Spec.exchange V key [1] ap nonce ps i0 i1 5)
    let cw ← getI pub 0
    let shift ← vecAddF cw.wCw ⟨.leaf, ([-1, 0] : List Field255)⟩
    let ps' ← V.encodePublicShare [{ cw with wCw := shift }]
    let bad := summary (Spec.exchange V key [1] ap nonce ps' i0 i1 5)
    return ((good.1, good.2.2.1, good.2.2.2.2, decide ([good.2.1, good.2.2.2.1] = outs.map some)),
      bad.1, bad.2.2.1, bad.2.2.2.2)) : Res ((String × String × ℕ × Bool) × String × String × ℕ)) =
    .ok (("FinishedWithOutbound", "Finished", 3, true), "Rejected", "Continued", 2) := by decide +kernel

-- Prio3
example : ((do
    let P ← Prio3Histogram toyPrims 40 2 2 1
    let V := P.vdaf
    let nonce := List.replicate 16 3
    let key := List.replicate 32 1
    let (pub, ish) ← P.shard [1] 1 nonce (List.replicate 128 7)
    let s0 ← getI ish 0
    let s1 ← getI ish 1
    let ps ← V.encodePublicShare pub
    let i0 ← V.encodeInputShare s0
    let i1 ← V.encodeInputShare s1
    let outs ← Spec.broadcast V key () [1] nonce pub [s0, s1]
    let good := summary (Spec.exchange V key [1] [] nonce ps i0 i1 5)
    let bad := summary (Spec.exchange V key [2] [] nonce ps i0 i1 5)
    return ((good.1, good.2.2.1, good.2.2.2.2, decide ([good.2.1, good.2.2.2.1] = outs.map some)),
      bad.1, bad.2.2.1, bad.2.2.2.2)) : Res ((String × String × ℕ × Bool) × String × String × ℕ)) =
    .ok (("Finished", "FinishedWithOutbound", 2, true), "Continued", "Rejected", 1) := by decide +kernel

end Vdaf
