import Verif.Spec.Agreement
import Verif.Proofs.PingPongInst
import Verif.Proofs.PingPong

/-! Agreement of the Leader and the Helper -/

namespace Vdaf
open Spec

namespace PingPong
variable {Meas AggParam PubShare InShare OutShare AggShare AggRes VState VShare VMsg : Type}
variable {V : VdafImpl Meas AggParam PubShare InShare OutShare AggShare AggRes VState VShare VMsg}

/-- The states that a party is in before it receives a finish message: only the state `FinishedWithOutbound` has one for
the peer. -/
def Open (s : PingPongState VState VShare OutShare) : Prop :=
  match s with
  | .continued _ _ m => ∀ items, decode m ≠ .ok (2, items)
  | .finished _ => False
  | _ => True

theorem decode_encode {t t' : ℕ} {items items' : List Bytes} {b : Bytes} (h : encode t items = .ok b)
    (hd : decode b = .ok (t', items')) : t = t' := by
  have h1 := ((encode_iff _ _ _).1 h)
  have h2 := (encode_iff _ _ _).1 ((decode_iff _ _ _).1 hd).2
  have h3 := h1.2.2.symm.trans h2.2.2
  have h4 := congrArg UInt8.toNat (List.cons.inj h3).1
  simp only [UInt8.toNat_ofNat'] at h4
  omega

theorem transition_open {ctx : Bytes} {a : AggParam} {shs : List VShare} {st : VState} {r : ℕ}
    {s : PingPongState VState VShare OutShare} (h : transition V ctx a shs st r = .ok s) : Open s := by
  obtain ⟨msg, bm, out, -, -, -, h4⟩ := transition_ok h
  rcases h4 with ⟨hr, b, hb, rfl⟩ | ⟨hr, st', sh', bs, b, rfl, hbs, hb, rfl⟩
  · exact trivial
  · intro items hd
    exact absurd (decode_encode hb hd) (by decide)

theorem leaderInit_open {k c a n p i : Bytes} {s : PingPongState VState VShare OutShare}
    (h : leaderInit V k c a n p i = .ok s) : Open s := by
  by_cases hne : s = .rejected
  · subst hne; exact trivial
  obtain ⟨a', p', i', st, sh, bs, b, -, -, -, -, -, hb, rfl⟩ := leaderInit_ok h hne
  intro items hd
  exact absurd (decode_encode hb hd) (by decide)

theorem helperInit_open {k c a n p i m : Bytes} {s : PingPongState VState VShare OutShare}
    (h : helperInit V k c a n p i m = .ok s) : Open s := by
  by_cases hne : s = .rejected
  · subst hne; exact trivial
  obtain ⟨a', p', i', st, sh, items, bs, peer, -, -, -, -, -, -, -, h8⟩ := helperInit_ok h hne
  exact transition_open h8

/-- A party that processes a message is open again, or it received a finish message. -/
theorem continued_open {isLeader : Bool} {c a : Bytes} {st : VState} {r : ℕ} {m : Bytes}
    {s : PingPongState VState VShare OutShare} (h : continued V isLeader c a st r m = .ok s) :
    Open s ∨ ((∃ items, decode m = .ok (2, items)) ∧ ∃ out, s = .finished out) := by
  by_cases hne : s = .rejected
  · subst hne; exact .inl trivial
  obtain ⟨t, items, bm, msg, out, h1, h2, h3, h4, h5, h6⟩ := continued_ok h hne
  rcases h6 with ⟨hr, ht, st', sh', bs, peer, a'', rfl, _, _, _, h7⟩ | ⟨hr, rfl, rfl⟩
  · exact .inl (transition_open h7)
  · exact .inr ⟨⟨items, h1⟩, out, rfl⟩

/-- If one party is finished, then the other one is finished and sent the last message. -/
def Paired (l h : PingPongState VState VShare OutShare) : Prop :=
  ((∃ o, l = .finished o) → ∃ o m, h = .finishedWithOutbound o m) ∧
  ((∃ o, h = .finished o) → ∃ o m, l = .finishedWithOutbound o m)

theorem paired_of_open {l h : PingPongState VState VShare OutShare} (hl : Open l) (hh : Open h) : Paired l h := by
  constructor
  · rintro ⟨o, rfl⟩; exact hl.elim
  · rintro ⟨o, rfl⟩; exact hh.elim

theorem open_finish {s : PingPongState VState VShare OutShare} (hs : Open s) {m : Bytes} (hm : outbound s = some m)
    {items : List Bytes} (hd : decode m = .ok (2, items)) : ∃ o b, s = .finishedWithOutbound o b := by
  cases s with
  | continued st r b =>
    cases hm
    exact absurd hd (hs items)
  | finishedWithOutbound o b => exact ⟨o, b, rfl⟩
  | _ => cases hm

theorem deliver_stop {ctx ap : Bytes} (k : ℕ) (b : Bool) {l h : PingPongState VState VShare OutShare} {n : ℕ}
    (hl : b = true → ∀ st r m, l ≠ .continued st r m) (hh : b = false → ∀ st r m, h ≠ .continued st r m) :
    deliver V ctx ap k b (l, h, n) = .ok (l, h, n) := by
  cases k with
  | zero => rfl
  | succ k =>
    cases b
    · unfold deliver
      cases h with
      | continued st r m => exact absurd rfl (hh rfl st r m)
      | _ => rfl
    · unfold deliver
      cases l with
      | continued st r m => exact absurd rfl (hl rfl st r m)
      | _ => rfl

theorem deliver_paired {ctx ap : Bytes} (k : ℕ) (b : Bool) {l h l' h' : PingPongState VState VShare OutShare} {n n' : ℕ}
    (hl : Open l) (hh : Open h) (hd : deliver V ctx ap k b (l, h, n) = .ok (l', h', n')) : Paired l' h' := by
  induction k generalizing b l h n with
  | zero =>
    cases hd
    exact paired_of_open hl hh
  | succ k ih =>
    cases b
    · unfold deliver at hd
      split at hd
      · rename_i st r m0 m hm
        rw [Except.bind_eq_ok] at hd
        obtain ⟨s, h1, h2⟩ := hd
        rcases continued_open (show continued V false ctx ap st r m = .ok s from h1) with ho | ⟨⟨items, hi⟩, out, rfl⟩
        · exact ih true hl ho h2
        · obtain ⟨o, b, rfl⟩ := open_finish hl hm hi
          rw [deliver_stop k true (by intro _ _ _ _ h; cases h) (by intro h; cases h)] at h2
          cases h2
          exact ⟨fun ⟨_, h⟩ => (by cases h), fun _ => ⟨_, _, rfl⟩⟩
      · cases hd
        exact paired_of_open hl hh
    · unfold deliver at hd
      split at hd
      · rename_i st r m0 m hm
        rw [Except.bind_eq_ok] at hd
        obtain ⟨s, h1, h2⟩ := hd
        rcases continued_open (show continued V true ctx ap st r m = .ok s from h1) with ho | ⟨⟨items, hi⟩, out, rfl⟩
        · exact ih false ho hh h2
        · obtain ⟨o, b, rfl⟩ := open_finish hh hm hi
          rw [deliver_stop k false (by intro h; cases h) (by intro _ _ _ _ h; cases h)] at h2
          cases h2
          exact ⟨fun _ => ⟨_, _, rfl⟩, fun ⟨_, h⟩ => by cases h⟩
      · cases hd
        exact paired_of_open hl hh

theorem exchange_paired {k ctx ap nonce ps i0 i1 : Bytes} {n c : ℕ} {l h : PingPongState VState VShare OutShare}
    (he : exchange V k ctx ap nonce ps i0 i1 n = .ok (l, h, c)) : Paired l h := by
  unfold exchange at he
  rw [Except.bind_eq_ok] at he
  obtain ⟨l0, h1, h2⟩ := he
  have ho := leaderInit_open h1
  cases hm : outbound l0 with
  | none =>
    rw [hm] at h2
    cases h2
    exact paired_of_open ho trivial
  | some m =>
    rw [hm] at h2
    dsimp only at h2
    rw [Except.bind_eq_ok] at h2
    obtain ⟨h0, h3, h4⟩ := h2
    exact deliver_paired n true ho (helperInit_open h3) h4

/-! ## One round -/

theorem exchange_one (hr : V.rounds = 1) {k ctx ap nonce ps i0 i1 : Bytes} {n c : ℕ} (hn : 1 ≤ n)
    {l h : PingPongState VState VShare OutShare} (he : exchange V k ctx ap nonce ps i0 i1 n = .ok (l, h, c)) :
    (¬ Accepted l ∧ ¬ Accepted h) ∨ ∃ a pub s0 s1 st0 sh0 st1 sh1 msg bm o m, V.decodeAggParam ap = .ok a ∧
      V.verifyInit k ctx 0 a nonce pub s0 = .ok (st0, sh0) ∧ V.verifyInit k ctx 1 a nonce pub s1 = .ok (st1, sh1) ∧
      (∃ peer, V.sharesToMessage ctx a [peer, sh1] = .ok msg ∧ V.decodePublicShare ps = .ok pub ∧
        V.decodeInputShare 1 i1 = .ok s1 ∧ ∃ bs, V.encodeVerifierShare sh0 = .ok bs ∧ V.decodeVerifierShare st1 bs = .ok peer) ∧
      V.encodeVerifierMessage msg = .ok bm ∧ encode 2 [bm] = .ok m ∧
      h = .finishedWithOutbound o m ∧ continued V true ctx ap st0 0 m = .ok l := by
  unfold exchange at he
  rw [Except.bind_eq_ok] at he
  obtain ⟨l0, h1, h2⟩ := he
  by_cases hne : l0 = .rejected
  · subst hne
    cases h2
    exact .inl ⟨id, id⟩
  obtain ⟨a, pub, s0, st0, sh0, bs0, b0, g1, g2, g3, g4, g5, g6, rfl⟩ := leaderInit_ok h1 hne
  simp only [outbound] at h2
  rw [Except.bind_eq_ok] at h2
  obtain ⟨h0, h3, h4⟩ := h2
  obtain ⟨n, rfl⟩ : ∃ j, n = j + 1 := ⟨n - 1, by omega⟩
  by_cases hne : h0 = .rejected
  · subst hne
    cases h4
    exact .inl ⟨id, id⟩
  obtain ⟨a', pub', s1, st1, sh1, items, bs, peer, f1, f2, f3, f4, f5, f6, f7, f8⟩ := helperInit_ok h3 hne
  rw [g1] at f1
  cases f1
  rw [g2] at f2
  cases f2
  obtain ⟨msg, bm, out, e1, e2, e3, e4⟩ := transition_ok f8
  rcases e4 with ⟨-, m, hm, rfl⟩ | ⟨hx, -⟩
  · unfold deliver at h4
    simp only [outbound] at h4
    rw [Except.bind_eq_ok] at h4
    obtain ⟨l1, h5, h6⟩ := h4
    rw [deliver_stop n false (by intro h; cases h) (by intro _ _ _ _ h; cases h)] at h6
    cases h6
    have hb : bs = bs0 := by
      rw [(decode_iff _ _ _).2 ⟨rfl, g6⟩] at f5
      cases f5
      exact (Option.some.inj f6).symm
    subst hb
    exact .inr ⟨a, pub, s0, s1, st0, sh0, st1, sh1, msg, bm, out, m, g1, g4, f4, ⟨peer, e1, g2, f3, bs, g5, f7⟩, e2, hm, rfl, h5⟩
  · omega

end PingPong

namespace PingPong
variable {Meas AggParam PubShare InShare OutShare AggShare AggRes VState VShare VMsg : Type}
variable {V : VdafImpl Meas AggParam PubShare InShare OutShare AggShare AggRes VState VShare VMsg}

/-! ## Two rounds -/

theorem exchange_two (hr : V.rounds = 2) {k ctx ap nonce ps i0 i1 : Bytes} {n c : ℕ} (hn : 2 ≤ n)
    {l h : PingPongState VState VShare OutShare} (he : exchange V k ctx ap nonce ps i0 i1 n = .ok (l, h, c)) :
    (¬ Accepted l ∧ ¬ Accepted h) ∨ ∃ a pub s0 s1 st0 sh0 st1 sh1 msg bm o m, V.decodeAggParam ap = .ok a ∧
      Held V k ctx a nonce pub 0 s0 1 st0 sh0 ∧ Held V k ctx a nonce pub 1 s1 1 st1 sh1 ∧
      (∃ peer bs, V.decodeVerifierShare st0 bs = .ok peer ∧ V.sharesToMessage ctx a [sh0, peer] = .ok msg) ∧
      V.encodeVerifierMessage msg = .ok bm ∧ encode 2 [bm] = .ok m ∧
      l = .finishedWithOutbound o m ∧ continued V false ctx ap st1 1 m = .ok h := by
  unfold exchange at he
  rw [Except.bind_eq_ok] at he
  obtain ⟨l0, h1, h2⟩ := he
  by_cases hne : l0 = .rejected
  · subst hne
    cases h2
    exact .inl ⟨id, id⟩
  obtain ⟨a, pub, s0, st0, sh0, bs0, b0, g1, g2, g3, g4, g5, g6, rfl⟩ := leaderInit_ok h1 hne
  simp only [outbound] at h2
  rw [Except.bind_eq_ok] at h2
  obtain ⟨h0, h3, h4⟩ := h2
  obtain ⟨n, rfl⟩ : ∃ j, n = j + 2 := ⟨n - 2, by omega⟩
  by_cases hne : h0 = .rejected
  · subst hne
    cases h4
    exact .inl ⟨id, id⟩
  obtain ⟨a', pub', s1, st1, sh1, items, bs, peer, f1, f2, f3, f4, f5, f6, f7, f8⟩ := helperInit_ok h3 hne
  rw [g1] at f1
  cases f1
  rw [g2] at f2
  cases f2
  obtain ⟨msg, bm, out, e1, e2, e3, e4⟩ := transition_ok f8
  rcases e4 with ⟨hx, -⟩ | ⟨-, st1', sh1', bs', m, rfl, hbs, hm, rfl⟩
  · omega
  have hh1 : Held V k ctx a nonce pub 1 s1 1 st1' sh1' := .next (.init f4) e3
  unfold deliver at h4
  simp only [outbound] at h4
  rw [Except.bind_eq_ok] at h4
  obtain ⟨l1, h5, h6⟩ := h4
  replace h5 : continued V true ctx ap st0 0 m = .ok l1 := h5
  by_cases hne : l1 = .rejected
  · subst hne
    cases h6
    exact .inl ⟨id, id⟩
  obtain ⟨t, items', bm', msg', out', d1, d2, d3, d4, d5, d6⟩ := continued_ok h5 hne
  rcases d6 with ⟨_, _, st0', sh0', bs2, peer2, a2, rfl, _, c1, c2, c3⟩ | ⟨hx, -⟩
  · rw [g1] at c2
    cases c2
    obtain ⟨msg2, bm2, out2, b1, b2, b3, b4⟩ := transition_ok c3
    rcases b4 with ⟨-, m2, hm2, rfl⟩ | ⟨hx, -⟩
    · unfold deliver at h6
      simp only [outbound] at h6
      rw [Except.bind_eq_ok] at h6
      obtain ⟨h1', h7, h8⟩ := h6
      rw [deliver_stop n true (by intro _ _ _ _ h; cases h) (by intro h; cases h)] at h8
      cases h8
      exact .inr ⟨a, pub, s0, s1, st0', sh0', st1', sh1', msg2, bm2, out2, m2, g1, .next (.init g4) d5, hh1, ⟨peer2, bs2, c1, b1⟩, b2,
        hm2, rfl, h7⟩
    · omega
  · omega

end PingPong

namespace Prio3
variable {F : Type} [NttField F] {Meas Agg : Type} {prims : Prims} {fuel : ℕ}
  {P : Prio3 (XofTurboShake128 prims fuel) F Meas Agg}

theorem exchange_helper {k ctx ap nonce ps i0 i1 : Bytes} {n c : ℕ} (hn : 1 ≤ n)
    {l h : PingPongState (List F × Option Bytes) (List F × Option Bytes) (List F)}
    (he : exchange P.vdaf k ctx ap nonce ps i0 i1 n = .ok (l, h, c)) (hl : Accepted l) : Accepted h := by
  rcases PingPong.exchange_one rfl hn he with ⟨h1, -⟩ | ⟨a, pub, s0, s1, st0, sh0, st1, sh1, msg, bm, o, m, -, -, -, -, -, -, rfl, -⟩
  · exact absurd hl h1
  · exact trivial

theorem exchange_leader (hj : P.flp.jointRandLen = 0) {k ctx ap nonce ps i0 i1 : Bytes} {n c : ℕ} (hn : 1 ≤ n)
    {l h : PingPongState (List F × Option Bytes) (List F × Option Bytes) (List F)}
    (he : exchange P.vdaf k ctx ap nonce ps i0 i1 n = .ok (l, h, c)) (hh : Accepted h) : Accepted l := by
  rcases PingPong.exchange_one rfl hn he with ⟨-, h1⟩ | ⟨a, pub, s0, s1, st0, sh0, st1, sh1, msg, bm, o, m, h1, h2, h3, ⟨peer, h4, -⟩,
    h5, h6, rfl, h7⟩
  · exact absurd hh h1
  have hs : msg = none := by
    have := sharesToMessage_shape h4
    cases msg with
    | none => rfl
    | some b => exact absurd this.1 (by omega)
  subst hs
  cases h5
  have hd : PingPong.decode m = .ok (2, [[]]) := (PingPong.decode_iff _ _ _).2 ⟨rfl, h6⟩
  have hst : st0.2 = none := by
    replace h2 : P.verifyInit k ctx 0 a nonce pub s0 = .ok (st0, sh0) := h2
    unfold verifyInit at h2
    rw [Except.bind_eq_ok] at h2; obtain ⟨⟨ms, ps, bl⟩, -, h2⟩ := h2
    dsimp only at h2
    rw [Except.bind_eq_ok] at h2; obtain ⟨os, -, h2⟩ := h2
    rw [Except.bind_eq_ok] at h2; obtain ⟨⟨jrs, corr, part⟩, g, h2⟩ := h2
    dsimp only at h2
    rw [Except.bind_eq_ok] at h2; obtain ⟨qrs, -, h2⟩ := h2
    rw [Except.bind_eq_ok] at h2; obtain ⟨w, -, h2⟩ := h2
    cases h2
    unfold verifyJointRand at g
    rw [if_neg (by omega)] at g
    cases g
    rfl
  have hc : PingPong.continued P.vdaf true ctx ap st0 0 m = .ok (.finished (.out st0.1)) := by
    obtain ⟨o0, corr⟩ := st0
    obtain rfl : corr = none := hst
    unfold PingPong.continued
    rw [hd]
    rfl
  rw [hc] at h7
  cases h7
  exact trivial

/-! ### With joint randomness -/

theorem verifyInit_parts (hj : 0 < P.flp.jointRandLen) {k ctx nonce : Bytes} {j : ℕ} {pub : Option (List Bytes)}
    {s : Prio3InputShare F} {st sh : List F × Option Bytes} (h : P.verifyInit k ctx j () nonce pub s = .ok (st, sh)) :
    ∃ parts part seed, pub = some parts ∧ part.length = 32 ∧ sh.2 = some part ∧
      P.jointRandSeed ctx (parts.set j part) = .ok seed ∧ st.2 = some seed := by
  unfold verifyInit at h
  rw [Except.bind_eq_ok] at h; obtain ⟨⟨ms, ps, bl⟩, -, h⟩ := h
  dsimp only at h
  rw [Except.bind_eq_ok] at h; obtain ⟨os, -, h⟩ := h
  rw [Except.bind_eq_ok] at h; obtain ⟨⟨jrs, corr, part⟩, g, h⟩ := h
  dsimp only at h
  rw [Except.bind_eq_ok] at h; obtain ⟨qrs, -, h⟩ := h
  rw [Except.bind_eq_ok] at h; obtain ⟨w, -, h⟩ := h
  cases h
  unfold verifyJointRand at g
  rw [if_pos hj] at g
  split at g
  · cases g
  split at g
  · cases g
  rename_i bl _ parts
  rw [Except.bind_eq_ok] at g; obtain ⟨pt, g1, g⟩ := g
  rw [Except.bind_eq_ok] at g; obtain ⟨parts', g2, g⟩ := g
  rw [Except.bind_eq_ok] at g; obtain ⟨seed, g3, g⟩ := g
  rw [Except.bind_eq_ok] at g; obtain ⟨jr, g4, g⟩ := g
  cases g
  rw [setI_eq_ok] at g2
  obtain ⟨_, rfl⟩ := g2
  rw [jointRandPart_ok] at g1
  have g1 := g1.2.2
  unfold Spec.jointRandPart at g1
  rw [Except.bind_eq_ok] at g1; obtain ⟨e, -, g1⟩ := g1
  exact ⟨parts, pt, seed, rfl, turbo_deriveSeed_length g1, rfl, g3, rfl⟩

theorem sharesToMessage_two (hj : 0 < P.flp.jointRandLen) {ctx : Bytes} {w0 w1 : List F} {p0 p1 : Bytes} {msg : Option Bytes}
    (h : P.sharesToMessage ctx () [(w0, some p0), (w1, some p1)] = .ok msg) :
    ∃ seed, msg = some seed ∧ P.jointRandSeed ctx [p0, p1] = .ok seed := by
  unfold sharesToMessage at h
  rw [Except.bind_eq_ok] at h; obtain ⟨⟨v, parts⟩, h1, h⟩ := h
  dsimp only at h
  rw [Except.bind_eq_ok] at h; obtain ⟨_, -, h⟩ := h
  rw [if_pos hj, Except.bind_eq_ok] at h
  obtain ⟨seed, h2, h⟩ := h
  cases h
  refine ⟨seed, rfl, ?_⟩
  rw [forFold_cons, Except.bind_eq_ok] at h1; obtain ⟨x, h3, h1⟩ := h1
  rw [forFold_cons, Except.bind_eq_ok] at h1; obtain ⟨y, h4, h1⟩ := h1
  cases h1
  dsimp only at h3
  rw [Except.bind_eq_ok] at h3; obtain ⟨_, -, h3⟩ := h3
  unfold appendPart at h3 h4
  rw [if_pos hj] at h3
  cases h3
  dsimp only at h4
  rw [Except.bind_eq_ok] at h4; obtain ⟨_, -, h4⟩ := h4
  rw [if_pos hj] at h4
  cases h4
  exact h2

theorem exchange_leader_parts (hs : P.shares = 2) {k ctx ap nonce ps i0 i1 : Bytes} {n c : ℕ} (hn : 1 ≤ n)
    (hp : ∀ parts s st sh, P.decodePublicShare ps = .ok (some parts) → P.decodeInputShare 1 i1 = .ok s →
      P.verifyInit k ctx 1 () nonce (some parts) s = .ok (st, sh) → sh.2 = parts[1]?)
    {l h : PingPongState (List F × Option Bytes) (List F × Option Bytes) (List F)}
    (he : exchange P.vdaf k ctx ap nonce ps i0 i1 n = .ok (l, h, c)) (hh : Accepted h) : Accepted l := by
  rcases Nat.eq_zero_or_pos P.flp.jointRandLen with hj | hj
  · exact exchange_leader hj hn he hh
  rcases PingPong.exchange_one rfl hn he with ⟨-, h1⟩ | ⟨a, pub, s0, s1, st0, sh0, st1, sh1, msg, bm, o, m, h1, h2, h3,
    ⟨peer, h4, d1, d2, bs, d3, d4⟩, h5, h6, rfl, h7⟩
  · exact absurd hh h1
  replace h2 : P.verifyInit k ctx 0 () nonce pub s0 = .ok (st0, sh0) := h2
  replace h3 : P.verifyInit k ctx 1 () nonce pub s1 = .ok (st1, sh1) := h3
  replace h4 : P.sharesToMessage ctx () [peer, sh1] = .ok msg := h4
  replace d1 : P.decodePublicShare ps = .ok pub := d1
  replace d3 : P.encodeVerifierShare sh0 = .ok bs := d3
  replace d4 : P.decodeVerifierShare st1 bs = .ok peer := d4
  obtain ⟨parts, p0, seed0, rfl, l0, e0, f0, c0⟩ := verifyInit_parts hj h2
  obtain ⟨parts', p1, seed1, hpp, l1, e1, f1, c1⟩ := verifyInit_parts hj h3
  cases hpp
  have hpeer : peer = sh0 := by
    have hsh : VerifierShareShape P sh0 := by
      refine ⟨?_, ?_⟩
      · obtain ⟨w0, q0⟩ := sh0
        unfold encodeVerifierShare at d3
        dsimp only at d3
        rw [Except.bind_eq_ok] at d3
        obtain ⟨_, d3, -⟩ := d3
        exact of_decide_eq_true (pyAssert_eq_ok.1 d3)
      · rw [e0]
        exact ⟨hj, l0⟩
    have := decodeVerifierShare_ok (st := st1).2 ⟨hsh, d3⟩
    rw [d4] at this
    exact Except.ok.inj this
  subst hpeer
  have hq := hp parts s1 st1 sh1 d1 d2 h3
  have hlen : parts.length = 2 := by
    rw [← hs]
    exact ((decodePublicShare_ok hj).1 d1).1.2.1
  obtain ⟨x, y, rfl⟩ : ∃ x y, parts = [x, y] := by
    match parts, hlen with
    | [x, y], _ => exact ⟨x, y, rfl⟩
  rw [e1] at hq
  obtain rfl : p1 = y := by simpa using hq
  obtain ⟨w0, q0⟩ := peer
  obtain ⟨w1, q1⟩ := sh1
  obtain ⟨o0, corr⟩ := st0
  dsimp only at e0 e1 c0
  subst e0 e1 c0
  obtain ⟨seed, rfl, h8⟩ := sharesToMessage_two hj h4
  rw [show [x, p1].set 0 p0 = [p0, p1] from rfl, h8] at f0
  obtain rfl : seed = seed0 := Except.ok.inj f0
  have hsl : seed.length = 32 := by
    rw [jointRandSeed_ok] at h8
    exact turbo_deriveSeed_length h8.2
  cases h5
  have hd : PingPong.decode m = .ok (2, [seed]) := (PingPong.decode_iff _ _ _).2 ⟨rfl, h6⟩
  have hc : PingPong.continued P.vdaf true ctx ap (o0, some seed) 0 m = .ok (.finished (.out o0)) := by
    unfold PingPong.continued
    rw [hd]
    have hm : P.vdaf.decodeVerifierMessage (o0, some seed) seed = .ok (some seed) := if_neg (by omega)
    have hv : P.vdaf.verifyNext ctx (o0, some seed) (some seed) = .ok (.out o0) := by
      show verifyNext ctx (o0, some seed) (some seed) = _
      unfold verifyNext
      simp [raiseIf]
    show PingPong.catchAll (do
      let verifierMessage ← P.vdaf.decodeVerifierMessage (o0, some seed) seed
      _) = _
    rw [hm]
    show PingPong.catchAll (do
      let out ← P.vdaf.verifyNext ctx (o0, some seed) (some seed)
      _) = _
    rw [hv]
    rfl
  rw [hc] at h7
  cases h7
  exact trivial

end Prio3

namespace Poplar1
variable {P : Poplar1} {prims : Prims} {fuel : ℕ}

theorem exchange_agree {k ctx ap nonce ps i0 i1 : Bytes} {n c : ℕ} (hn : 2 ≤ n)
    {l h : PingPongState Poplar1VerifyState FieldVec FieldVec}
    (he : exchange (P.vdaf prims fuel) k ctx ap nonce ps i0 i1 n = .ok (l, h, c)) : Accepted l ↔ Accepted h := by
  rcases PingPong.exchange_two rfl hn he with ⟨h1, h2⟩ | ⟨a, pub, s0, s1, st0, sh0, st1, sh1, msg, bm, o, m, h1, h2, h3,
    ⟨peer, bs, -, h4⟩, h5, h6, rfl, h7⟩
  · exact ⟨fun h => absurd h h1, fun h => absurd h h2⟩
  refine ⟨fun _ => ?_, fun _ => trivial⟩
  have hs0 : sh0.2.length = 1 := by
    rcases (held_shape h2).2.2.2 with ⟨hx, -⟩ | ⟨-, -, h⟩
    · omega
    · exact h
  have hs1 : st1.step = .reveal := by
    rcases (held_shape h3).2.2.2 with ⟨hx, -⟩ | ⟨-, h, -⟩
    · omega
    · exact h
  have hmsg : msg = none := by
    replace h4 : sharesToMessage ctx a [sh0, peer] = .ok msg := h4
    unfold sharesToMessage at h4
    dsimp only at h4
    rw [Except.bind_eq_ok] at h4
    obtain ⟨w, h4, h8⟩ := h4
    have hw : w.2.length = 1 := by
      unfold vecAddF at h4
      rw [Except.bind_eq_ok] at h4; obtain ⟨u, h9, h4⟩ := h4
      cases h4
      unfold vecAdd at h9
      split at h9
      · cases h9
      · rename_i hl
        cases h9
        simp at hl ⊢
        omega
    split at h8
    · rename_i hx
      rw [hx] at hw
      cases hw
    · split at h8
      · cases h8; rfl
      · cases h8
    · cases h8
  subst hmsg
  cases h5
  have hd : PingPong.decode m = .ok (2, [[]]) := (PingPong.decode_iff _ _ _).2 ⟨rfl, h6⟩
  have hc : PingPong.continued (P.vdaf prims fuel) false ctx ap st1 1 m = .ok (.finished (.out st1.mem)) := by
    have hv : (P.vdaf prims fuel).verifyNext ctx st1 none = .ok (.out st1.mem) := by
      show verifyNext ctx st1 none = _
      unfold verifyNext
      rw [hs1]
    have hdm : (P.vdaf prims fuel).decodeVerifierMessage st1 [] = .ok none := rfl
    unfold PingPong.continued
    rw [hd]
    simp [getI, hdm, hv, PingPong.catchAll, show (P.vdaf prims fuel).rounds = 2 from rfl]
  rw [hc] at h7
  cases h7
  exact trivial

end Poplar1
end Vdaf
