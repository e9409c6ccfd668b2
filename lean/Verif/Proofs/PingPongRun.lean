import Verif.Proofs.PingPong

/-! # The honest ping-pong exchange -/

namespace Vdaf.PingPong

variable {Meas AggParam PubShare InShare OutShare AggShare AggRes VState VShare VMsg : Type}
variable (V : VdafImpl Meas AggParam PubShare InShare OutShare AggShare AggRes VState VShare VMsg)

/-- The remaining rounds of the broadcast execution, one for each element of `l`, and the last step -/
def bcast {α : Type} (ctx : Bytes) (a : AggParam) (l : List α) (st : List VState × List VShare) :
    Res (List OutShare) := do
  let (states, shares) ← forFold l st fun st _ => V.runRound ctx a st
  let msg ← V.sharesToMessage ctx a shares
  mapRes (fun j => do
    let s ← getI states j
    V.verifyNextOut ctx s msg) (List.range V.shares)

theorem broadcast_eq (k : Bytes) (a : AggParam) (ctx nonce : Bytes) (pub : PubShare)
    (s0 s1 : InShare) (h2 : V.shares = 2) :
    Spec.broadcast V k a ctx nonce pub [s0, s1] = (do
      let x ← V.verifyInit k ctx 0 a nonce pub s0
      let y ← V.verifyInit k ctx 1 a nonce pub s1
      bcast V ctx a (List.range (V.rounds - 1)) ([x.1, y.1], [x.2, y.2])) := by
  unfold Spec.broadcast bcast
  have hr : List.range 2 = [0, 1] := rfl
  rw [h2, hr]
  simp only [mapRes_cons, mapRes_nil, getI, List.getElem?_cons_zero, List.getElem?_cons_succ, Except.ok_bind',
    Except.pure_eq']
  rcases V.verifyInit k ctx 0 a nonce pub s0 with e | x
  · rfl
  rcases V.verifyInit k ctx 1 a nonce pub s1 with e | y
  · rfl
  rfl

theorem outShares_eq (k : Bytes) (a : AggParam) (ctx : Bytes) (m : Meas) (nonce rand : Bytes) :
    Spec.outShares V k a ctx (m, nonce, rand) = (do
      let (pub, ish) ← V.shard ctx m nonce rand
      Spec.broadcast V k a ctx nonce pub ish) := by
  unfold Spec.outShares VdafImpl.runVerify Spec.broadcast
  dsimp only
  rcases V.shard ctx m nonce rand with e | ⟨pub, ish⟩
  · rfl
  simp only [Except.ok_bind']
  rcases mapRes (fun j => do
    let inputShare ← getI ish j
    V.verifyInit k ctx j a nonce pub inputShare) (List.range V.shares) with e | outs
  · rfl
  simp only [Except.ok_bind']
  rcases forFold (List.range (V.rounds - 1)) (outs.map Prod.fst, outs.map Prod.snd)
    fun st _ => V.runRound ctx a st with e | ⟨ss, sh⟩
  · rfl
  simp only [Except.ok_bind']
  rcases V.sharesToMessage ctx a sh with e | msg
  · rfl
  rfl

variable {V}

/-- The state of the exchange in which the Leader is in state `x` and the Helper in `y` if `p`; otherwise the other
way round -/
def arr (p : Bool) (x y : PingPongState VState VShare OutShare) (n : ℕ) : Spec.Exchange VState VShare OutShare :=
  if p then (x, y, n) else (y, x, n)

theorem arr_not (p : Bool) (x y : PingPongState VState VShare OutShare) (n : ℕ) : arr (!p) x y n = arr p y x n := by
  cases p <;> rfl

theorem deliver_step (ctx ap : Bytes) (k : ℕ) (p : Bool) (x : PingPongState VState VShare OutShare) (st : VState)
    (r : ℕ) (b m : Bytes) (n : ℕ) (hx : Spec.outbound x = some m) :
    Spec.deliver V ctx ap (k + 1) (!p) (arr p x (.continued st r b) n) = (do
      let s ← continued V (!p) ctx ap st r m
      Spec.deliver V ctx ap k p (arr p x s (n + Spec.sent s))) := by
  cases p <;> simp only [Bool.not_false, Bool.not_true, arr, Bool.false_eq_true, if_false, if_true, Spec.deliver, hx,
    leaderContinued, helperContinued]

theorem deliver_none (ctx ap : Bytes) (k : ℕ) (p : Bool) (x y : PingPongState VState VShare OutShare) (n : ℕ)
    (hx : Spec.outbound x = none) : Spec.deliver V ctx ap k (!p) (arr p x y n) = .ok (arr p x y n) := by
  cases k with
  | zero => cases p <;> rfl
  | succ k =>
    cases p
    · simp only [Bool.not_false, arr, Bool.false_eq_true, if_false]
      unfold Spec.deliver
      split
      · rename_i h; rw [hx] at h; cases h
      · rfl
    · simp only [Bool.not_true, arr, if_true]
      unfold Spec.deliver
      split
      · rename_i h; rw [hx] at h; cases h
      · rfl

section
variable (V)
variable (k ctx : Bytes) (a : AggParam) (nonce : Bytes) (pub : PubShare) (s : Bool → InShare)

/-- Party `p` (the Leader is `true`) -/
def HeldB (p : Bool) (r : ℕ) (st : VState) (sh : VShare) : Prop :=
  Spec.Held V k ctx a nonce pub (if p then 0 else 1) (s p) r st sh

/-- `PingPongReady` by party -/
structure Ready : Prop where
  last : ∀ p r st sh msg out, HeldB V k ctx a nonce pub s p r st sh → r < V.rounds →
    V.verifyNext ctx st msg = .ok out → (r + 1 < V.rounds ↔ ∃ st' sh', out = .cont st' sh')
  share : ∀ r (st : Bool → VState) (sh : Bool → VShare), (∀ p, HeldB V k ctx a nonce pub s p r (st p) (sh p)) →
    ∀ p, ∃ b, V.encodeVerifierShare (sh p) = .ok b ∧ Spec.Fits32 b ∧ V.decodeVerifierShare (st !p) b = .ok (sh p)
  message : ∀ r (st : Bool → VState) (sh : Bool → VShare) msg,
    (∀ p, HeldB V k ctx a nonce pub s p r (st p) (sh p)) →
    V.sharesToMessage ctx a [sh true, sh false] = .ok msg →
    ∃ b, V.encodeVerifierMessage msg = .ok b ∧ Spec.Fits32 b ∧ ∀ p, V.decodeVerifierMessage (st p) b = .ok msg
end

theorem ready_of {k ctx : Bytes} {a : AggParam} {nonce : Bytes} {pub : PubShare} {s : Bool → InShare}
    (h : Spec.PingPongReady V k ctx a nonce pub (s true) (s false)) : Ready V k ctx a nonce pub s where
  last p r st sh msg out hh := by
    cases p
    · exact h.last r st sh msg out (.inr hh)
    · exact h.last r st sh msg out (.inl hh)
  share r st sh hh p := by
    have := h.share r _ _ _ _ (hh true) (hh false)
    cases p
    · exact this.2
    · exact this.1
  message r st sh msg hh hm := by
    obtain ⟨b, h1, h2, h3, h4⟩ := h.message r _ _ _ _ msg (hh true) (hh false) hm
    exact ⟨b, h1, h2, fun p => by cases p; exact h4; exact h3⟩

/-! ### The broadcast execution of two parties -/

theorem runRound_two (h2 : V.shares = 2) {ctx : Bytes} {a : AggParam} {st st' : Bool → VState}
    {sh sh' : Bool → VShare} {msg : VMsg} (hm : V.sharesToMessage ctx a [sh true, sh false] = .ok msg)
    (hn : ∀ p, V.verifyNext ctx (st p) msg = .ok (.cont (st' p) (sh' p))) :
    V.runRound ctx a ([st true, st false], [sh true, sh false]) =
      .ok ([st' true, st' false], [sh' true, sh' false]) := by
  unfold VdafImpl.runRound VdafImpl.verifyNextTuple
  rw [hm, h2]
  have hr : List.range 2 = [0, 1] := rfl
  rw [hr]
  simp [mapRes_cons, getI, hn]

theorem bcast_ne_ok (h2 : V.shares = 2) {α : Type} {ctx : Bytes} {a : AggParam} {st : Bool → VState}
    {sh : Bool → VShare} {msg : VMsg} (hm : V.sharesToMessage ctx a [sh true, sh false] = .ok msg)
    {p : Bool} {e : Err} (hn : V.verifyNext ctx (st p) msg = .error e) (l : List α) (os : List OutShare) :
    bcast V ctx a l ([st true, st false], [sh true, sh false]) ≠ .ok os := by
  have hr : List.range 2 = [0, 1] := rfl
  unfold bcast
  cases l with
  | nil =>
    simp only [forFold_nil, Except.ok_bind', hm, h2, hr, mapRes_cons, getI, List.getElem?_cons_zero,
      List.getElem?_cons_succ, VdafImpl.verifyNextOut]
    cases p
    · rw [hn]
      rcases V.verifyNext ctx (st true) msg with e | o
      · simp
      · cases o <;> simp
    · rw [hn]; simp
  | cons x l =>
    rw [forFold_cons]
    have : ∀ y, V.runRound ctx a ([st true, st false], [sh true, sh false]) ≠ .ok y := by
      intro y
      unfold VdafImpl.runRound VdafImpl.verifyNextTuple
      simp only [hm, h2, hr, Except.ok_bind', mapRes_cons, getI, List.getElem?_cons_zero, List.getElem?_cons_succ]
      cases p
      · rw [hn]
        rcases V.verifyNext ctx (st true) msg with e | o
        · simp
        · cases o <;> simp
      · rw [hn]; simp
    rcases h : V.runRound ctx a ([st true, st false], [sh true, sh false]) with e | y
    · simp
    · exact absurd h (this y)

/-! ### The exchange -/

/-- The exchange ended with a rejection or diverged. -/
def Bad (R : Res (Spec.Exchange VState VShare OutShare)) : Prop :=
  R = .error .fuel ∨ ∃ l h c, R = .ok (l, h, c) ∧ (l = .rejected ∨ h = .rejected)

theorem bad_catch (ctx ap : Bytes) (kk : ℕ) (p : Bool) (y : PingPongState VState VShare OutShare) (c : ℕ) (e : Err) :
    Bad (do
      let x ← catchAll (.error e : Res (PingPongState VState VShare OutShare))
      Spec.deliver V ctx ap kk (!p) (arr p x y (c + Spec.sent x))) := by
  rcases catchAll_error (VState := VState) (VShare := VShare) (OutShare := OutShare) e with h | h
  · rw [h]; left; rfl
  · rw [h, Except.ok_bind', deliver_none _ _ _ _ _ _ _ rfl]
    right
    cases p
    · exact ⟨_, _, _, rfl, .inr rfl⟩
    · exact ⟨_, _, _, rfl, .inl rfl⟩

theorem bad_receive (ctx ap : Bytes) (kk : ℕ) (p : Bool) (x : PingPongState VState VShare OutShare) (st : VState)
    (r : ℕ) (b m : Bytes) (n : ℕ) (hx : Spec.outbound x = some m) (e : Err)
    (hc : continued V (!p) ctx ap st r m = catchAll (.error e)) (hk : 0 < kk) :
    Bad (Spec.deliver V ctx ap kk (!p) (arr p x (.continued st r b) n)) := by
  obtain ⟨kk, rfl⟩ := Nat.exists_eq_add_of_lt hk
  rw [zero_add, deliver_step _ _ _ _ _ _ _ _ _ _ hx, hc]
  have := bad_catch (V := V) (VState := VState) (VShare := VShare) (OutShare := OutShare) ctx ap kk (!p) x n e
  rw [Bool.not_not] at this
  simpa only [arr_not] using this

theorem continued_error {isLeader : Bool} {c ap : Bytes} {st : VState} {r : ℕ} {m : Bytes} {t : ℕ} {bm : Bytes}
    {items : List Bytes} {msg : VMsg} {e : Err} (hd : decode m = .ok (t, bm :: items)) (ht : t ≠ 0)
    (hm : V.decodeVerifierMessage st bm = .ok msg) (hn : V.verifyNext c st msg = .error e) :
    continued V isLeader c ap st r m = catchAll (.error e) := by
  unfold continued
  rw [hd]
  simp only [Except.ok_bind', if_neg ht, getI, List.getElem?_cons_zero, hm, hn, Except.error_bind']

/-- The result of a successful exchange: party `last` sent the last message. -/
def Done (R : Res (Spec.Exchange VState VShare OutShare)) (o : Bool → OutShare) (c : ℕ) (last : Bool) : Prop :=
  ∃ m, R = .ok (arr last (.finishedWithOutbound (.out (o last)) m) (.finished (.out (o !last))) c)

theorem exchange_loop {k ctx : Bytes} {a : AggParam} {nonce : Bytes} {pub : PubShare} {s : Bool → InShare}
    (hR : Ready V k ctx a nonce pub s) (h2 : V.shares = 2) {ap : Bytes} (hap : V.decodeAggParam ap = .ok a)
    {α : Type} (l : List α) :
    ∀ (p : Bool) (r : ℕ) (st : Bool → VState) (sh : Bool → VShare) (kk c : ℕ) (b : Bytes),
    (∀ p, HeldB V k ctx a nonce pub s p r (st p) (sh p)) → r + l.length + 1 = V.rounds → l.length + 1 ≤ kk →
    (∀ os, bcast V ctx a l ([st true, st false], [sh true, sh false]) = .ok os →
      ∃ o : Bool → OutShare, os = [o true, o false] ∧
      Done (do
        let x ← catchAll (transition V ctx a [sh true, sh false] (st p) r)
        Spec.deliver V ctx ap kk (!p) (arr p x (.continued (st !p) r b) (c + Spec.sent x)))
        o (c + l.length + 1) (if l.length % 2 = 0 then p else !p)) ∧
    (∀ e, bcast V ctx a l ([st true, st false], [sh true, sh false]) = .error e →
      Bad (do
        let x ← catchAll (transition V ctx a [sh true, sh false] (st p) r)
        Spec.deliver V ctx ap kk (!p) (arr p x (.continued (st !p) r b) (c + Spec.sent x)))) := by
  induction l with
  | nil =>
    intro p r st sh kk c b hh hr hk
    simp only [List.length_nil, add_zero, zero_add, Nat.zero_mod, if_true] at *
    -- the message
    rcases hm : V.sharesToMessage ctx a [sh true, sh false] with e | msg
    · have ht : transition V ctx a [sh true, sh false] (st p) r = .error e := by
        unfold transition; rw [hm]; rfl
      rw [ht]
      refine ⟨fun os h => ?_, fun _ _ => bad_catch _ _ _ _ _ _ _⟩
      unfold bcast at h
      simp [hm] at h
    obtain ⟨bm, hbm, hfit, hdec⟩ := hR.message r st sh msg hh hm
    have henc : encode 2 [bm] = .ok (UInt8.ofNat 2 :: ([bm].map frame).flatten) :=
      (encode_iff _ _ _).2 ⟨by norm_num, by simpa [Spec.Fits32] using hfit, rfl⟩
    have hde : decode (UInt8.ofNat 2 :: ([bm].map frame).flatten) = .ok (2, [bm]) :=
      (decode_iff _ _ _).2 ⟨rfl, henc⟩
    -- the sender
    rcases hn : V.verifyNext ctx (st p) msg with e | out
    · have ht : transition V ctx a [sh true, sh false] (st p) r = .error e := by
        unfold transition; rw [hm, Except.ok_bind', hbm, Except.ok_bind', hn]; rfl
      rw [ht]
      exact ⟨fun os h => absurd h (bcast_ne_ok h2 hm hn _ _), fun _ _ => bad_catch _ _ _ _ _ _ _⟩
    have ht : transition V ctx a [sh true, sh false] (st p) r = .ok (.finishedWithOutbound out
        (UInt8.ofNat 2 :: ([bm].map frame).flatten)) := by
      unfold transition
      rw [hm, Except.ok_bind', hbm, Except.ok_bind', hn, Except.ok_bind', if_pos hr, henc]; rfl
    rw [ht]
    simp only [catchAll, Except.ok_bind']
    -- the receiver
    rcases hn' : V.verifyNext ctx (st !p) msg with e | out'
    · refine ⟨fun os h => absurd h (bcast_ne_ok h2 hm hn' _ _), fun _ _ => ?_⟩
      exact bad_receive _ _ _ _ _ _ _ _ _ _ rfl e (continued_error hde (by norm_num) (hdec _) hn') (by omega)
    have hout : ∃ o : Bool → OutShare, ∀ q, V.verifyNext ctx (st q) msg = .ok (.out (o q)) := by
      have key : ∀ q, ∃ o, V.verifyNext ctx (st q) msg = .ok (.out o) := by
        intro q
        have hq : ∃ z, V.verifyNext ctx (st q) msg = .ok z := by
          by_cases hqp : q = p
          · subst hqp; exact ⟨_, hn⟩
          · have : q = !p := by cases q <;> cases p <;> simp_all
            subst this; exact ⟨_, hn'⟩
        obtain ⟨z, hz⟩ := hq
        have := hR.last q r _ _ msg z (hh q) (by omega) hz
        cases z with
        | cont x y => exact absurd (this.2 ⟨_, _, rfl⟩) (by omega)
        | out o => exact ⟨o, hz⟩
      choose o ho using key
      exact ⟨o, ho⟩
    obtain ⟨o, ho⟩ := hout
    rw [ho p] at hn
    rw [ho !p] at hn'
    simp only [Except.ok.injEq] at hn hn'
    subst hn hn'
    have hb : bcast V ctx a ([] : List α) ([st true, st false], [sh true, sh false]) = .ok [o true, o false] := by
      have hr2 : List.range 2 = [0, 1] := rfl
      unfold bcast
      simp [hm, h2, hr2, mapRes_cons, getI, VdafImpl.verifyNextOut, ho]
    rw [hb]
    refine ⟨fun os h => ⟨o, by simpa using h.symm, ?_⟩, fun e h => by simp at h⟩
    obtain ⟨kk, rfl⟩ := Nat.exists_eq_add_of_lt (show 0 < kk by omega)
    rw [zero_add, deliver_step _ _ _ _ _ _ _ _ _ _ rfl]
    have hc : continued V (!p) ctx ap (st !p) r (UInt8.ofNat 2 :: ([bm].map frame).flatten) =
        .ok (.finished (.out (o !p))) := by
      unfold continued
      rw [hde]
      simp [getI, hdec, ho, hr, catchAll]
    rw [hc, Except.ok_bind']
    have := deliver_none (V := V) ctx ap kk (!p) (.finished (.out (o !p)))
      (.finishedWithOutbound (.out (o p)) (UInt8.ofNat 2 :: ([bm].map frame).flatten)) (c + 1) rfl
    rw [Bool.not_not] at this
    simp only [arr_not] at this
    exact ⟨_, this⟩
  | cons x l ih =>
    intro p r st sh kk c b hh hr hk
    simp only [List.length_cons] at hr hk ⊢
    rcases hm : V.sharesToMessage ctx a [sh true, sh false] with e | msg
    · have ht : transition V ctx a [sh true, sh false] (st p) r = .error e := by
        unfold transition; rw [hm]; rfl
      rw [ht]
      refine ⟨fun os h => ?_, fun _ _ => bad_catch _ _ _ _ _ _ _⟩
      unfold bcast VdafImpl.runRound at h
      simp [forFold_cons, hm] at h
    obtain ⟨bm, hbm, hfit, hdec⟩ := hR.message r st sh msg hh hm
    rcases hn : V.verifyNext ctx (st p) msg with e | out
    · have ht : transition V ctx a [sh true, sh false] (st p) r = .error e := by
        unfold transition; rw [hm, Except.ok_bind', hbm, Except.ok_bind', hn]; rfl
      rw [ht]
      exact ⟨fun os h => absurd h (bcast_ne_ok h2 hm hn _ _), fun _ _ => bad_catch _ _ _ _ _ _ _⟩
    obtain ⟨stp, shp, rfl⟩ := (hR.last p r _ _ msg out (hh p) (by omega) hn).1 (by omega)
    rcases hn' : V.verifyNext ctx (st !p) msg with e | out'
    · refine ⟨fun os h => absurd h (bcast_ne_ok h2 hm hn' _ _), fun _ _ => ?_⟩
      rcases ht : transition V ctx a [sh true, sh false] (st p) r with e' | s'
      · exact bad_catch _ _ _ _ _ _ _
      obtain ⟨msg', bm', out, h1, h2', h3, h4⟩ := transition_ok ht
      rw [hm] at h1
      simp only [Except.ok.injEq] at h1
      subst h1
      rw [hbm] at h2'
      simp only [Except.ok.injEq] at h2'
      subst h2'
      rcases h4 with ⟨hr', _⟩ | ⟨_, st', sh', bs, b', _, _, hb', rfl⟩
      · omega
      simp only [catchAll, Except.ok_bind']
      exact bad_receive _ _ _ _ _ _ _ _ _ _ rfl e
        (continued_error ((decode_iff _ _ _).2 ⟨rfl, hb'⟩) (by norm_num) (hdec _) hn') (by omega)
    have hout : ∃ (st' : Bool → VState) (sh' : Bool → VShare),
        ∀ q, V.verifyNext ctx (st q) msg = .ok (.cont (st' q) (sh' q)) := by
      have key : ∀ q, ∃ x y, V.verifyNext ctx (st q) msg = .ok (.cont x y) := by
        intro q
        have hq : ∃ z, V.verifyNext ctx (st q) msg = .ok z := by
          by_cases hqp : q = p
          · subst hqp; exact ⟨_, hn⟩
          · have : q = !p := by cases q <;> cases p <;> simp_all
            subst this; exact ⟨_, hn'⟩
        obtain ⟨z, hz⟩ := hq
        obtain ⟨x, y, rfl⟩ := (hR.last q r _ _ msg z (hh q) (by omega) hz).1 (by omega)
        exact ⟨x, y, hz⟩
      choose st' sh' ho using key
      exact ⟨st', sh', ho⟩
    obtain ⟨st', sh', ho⟩ := hout
    have hh' : ∀ q, HeldB V k ctx a nonce pub s q (r + 1) (st' q) (sh' q) := fun q => (hh q).next (ho q)
    obtain ⟨bs, hbs, hfit', hdec'⟩ := hR.share (r + 1) st' sh' hh' p
    have henc : encode 1 [bm, bs] = .ok (UInt8.ofNat 1 :: ([bm, bs].map frame).flatten) :=
      (encode_iff _ _ _).2 ⟨by norm_num, by
        intro i hi
        simp only [List.mem_cons, List.not_mem_nil, or_false] at hi
        rcases hi with rfl | rfl
        · exact hfit
        · exact hfit', rfl⟩
    have hde : decode (UInt8.ofNat 1 :: ([bm, bs].map frame).flatten) = .ok (1, [bm, bs]) :=
      (decode_iff _ _ _).2 ⟨rfl, henc⟩
    have ht : transition V ctx a [sh true, sh false] (st p) r = .ok (.continued (st' p) (r + 1)
        (UInt8.ofNat 1 :: ([bm, bs].map frame).flatten)) := by
      unfold transition
      rw [hm, Except.ok_bind', hbm, Except.ok_bind', ho, Except.ok_bind', if_neg (by omega)]
      simp only [unpack, Except.ok_bind', hbs, henc, Except.pure_eq']
    obtain ⟨kk, rfl⟩ := Nat.exists_eq_add_of_lt (show 0 < kk by omega)
    have hc : continued V (!p) ctx ap (st !p) r (UInt8.ofNat 1 :: ([bm, bs].map frame).flatten) =
        catchAll (transition V ctx a [sh' true, sh' false] (st' !p) (r + 1)) := by
      unfold continued
      rw [hde]
      simp only [Except.ok_bind', one_ne_zero, if_false, getI, List.getElem?_cons_zero, hdec, ho]
      rw [if_pos ⟨by omega, trivial⟩]
      simp only [unpack, Except.ok_bind', List.getElem?_cons_succ, List.getElem?_cons_zero, hdec', hap]
      cases p <;> rfl
    have hstep : (do
        let x ← catchAll (transition V ctx a [sh true, sh false] (st p) r)
        Spec.deliver V ctx ap (0 + kk + 1) (!p) (arr p x (.continued (st !p) r b) (c + Spec.sent x))) = (do
        let x ← catchAll (transition V ctx a [sh' true, sh' false] (st' !p) (r + 1))
        Spec.deliver V ctx ap kk (!!p) (arr (!p) x (.continued (st' !!p) (r + 1)
          (UInt8.ofNat 1 :: ([bm, bs].map frame).flatten)) (c + 1 + Spec.sent x))) := by
      rw [ht]
      simp only [catchAll, Except.ok_bind']
      rw [zero_add, deliver_step _ _ _ _ _ _ _ _ _ _ rfl, hc]
      simp only [Bool.not_not, arr_not]
      rfl
    rw [hstep]
    have hb : bcast V ctx a (x :: l) ([st true, st false], [sh true, sh false]) =
        bcast V ctx a l ([st' true, st' false], [sh' true, sh' false]) := by
      unfold bcast
      rw [forFold_cons, runRound_two h2 hm ho]
      rfl
    rw [hb]
    obtain ⟨g1, g2⟩ := ih (!p) (r + 1) st' sh' kk (c + 1)
      (UInt8.ofNat 1 :: ([bm, bs].map frame).flatten) hh' (by omega) (by omega)
    refine ⟨fun os h => ?_, fun e h => g2 e h⟩
    obtain ⟨o, ho1, ho2⟩ := g1 os h
    refine ⟨o, ho1, ?_⟩
    rw [show c + (l.length + 1) + 1 = c + 1 + l.length + 1 by ring]
    have : (if (l.length + 1) % 2 = 0 then p else !p) = if l.length % 2 = 0 then !p else !!p := by
      rcases Nat.mod_two_eq_zero_or_one l.length with h | h
      · rw [if_neg (by omega), if_pos h]
      · rw [if_pos (by omega), if_neg (by omega), Bool.not_not]
    rw [this]
    exact ho2

theorem exchange_main {k ctx : Bytes} {a : AggParam} {nonce : Bytes} {pub : PubShare} {s : Bool → InShare}
    (hR : Ready V k ctx a nonce pub s) (h2 : V.shares = 2) (h1 : 1 ≤ V.rounds) {ap ps i0 i1 : Bytes}
    (hap : V.decodeAggParam ap = .ok a) (hps : V.decodePublicShare ps = .ok pub)
    (hi0 : V.decodeInputShare 0 i0 = .ok (s true)) (hi1 : V.decodeInputShare 1 i1 = .ok (s false))
    (kk : ℕ) (hk : V.rounds ≤ kk) :
    (∀ os, Spec.broadcast V k a ctx nonce pub [s true, s false] = .ok os → ∃ o : Bool → OutShare, os = [o true, o false] ∧
      Done (Spec.exchange V k ctx ap nonce ps i0 i1 kk) o (V.rounds + 1) (decide (V.rounds % 2 = 0))) ∧
    (∀ e, Spec.broadcast V k a ctx nonce pub [s true, s false] = .error e →
      Bad (Spec.exchange V k ctx ap nonce ps i0 i1 kk)) := by
  rw [broadcast_eq V k a ctx nonce pub _ _ h2]
  have hstop : ∀ e, leaderInit V k ctx ap nonce ps i0 = catchAll (.error e) →
      Bad (Spec.exchange V k ctx ap nonce ps i0 i1 kk) := by
    intro e he
    unfold Spec.exchange
    rw [he]
    rcases catchAll_error (VState := VState) (VShare := VShare) (OutShare := OutShare) e with h | h
    · rw [h]; left; rfl
    · rw [h]; right; exact ⟨_, _, _, rfl, .inl rfl⟩
  rcases h3 : V.verifyInit k ctx 0 a nonce pub (s true) with e | ⟨st0, sh0⟩
  · refine ⟨fun os h => by simp at h, fun _ _ => hstop e ?_⟩
    unfold leaderInit
    rw [hap, Except.ok_bind', hps, Except.ok_bind', hi0, Except.ok_bind', h3]
    rfl
  rcases h4 : V.verifyInit k ctx 1 a nonce pub (s false) with e | ⟨st1, sh1⟩
  · refine ⟨fun os h => by simp at h, fun _ _ => ?_⟩
    have hl : leaderInit V k ctx ap nonce ps i0 = catchAll (do
        let encodedVerifierShare ← V.encodeVerifierShare sh0
        let outbound ← encode 0 [encodedVerifierShare]
        return .continued st0 0 outbound) := by
      unfold leaderInit
      rw [hap, Except.ok_bind', hps, Except.ok_bind', hi0, Except.ok_bind', h3]
      rfl
    rcases h5 : V.encodeVerifierShare sh0 with e' | bs
    · refine hstop e' ?_
      rw [hl, h5]; rfl
    rcases h6 : encode 0 [bs] with e' | b
    · refine hstop e' ?_
      rw [hl, h5, Except.ok_bind', h6]; rfl
    have hl' : leaderInit V k ctx ap nonce ps i0 = .ok (.continued st0 0 b) := by
      rw [hl, h5, Except.ok_bind', h6]; rfl
    have hh : helperInit V k ctx ap nonce ps i1 b = catchAll (.error e) := by
      unfold helperInit
      rw [hap, Except.ok_bind', hps, Except.ok_bind', hi1, Except.ok_bind', h4]
      rfl
    unfold Spec.exchange
    rw [hl', Except.ok_bind']
    simp only [Spec.outbound]
    rw [hh]
    exact bad_catch (V := V) ctx ap kk false (.continued st0 0 b) 1 e
  have hheld : ∀ p, HeldB V k ctx a nonce pub s p 0 ((fun p => if p then st0 else st1) p)
      ((fun p => if p then sh0 else sh1) p) := by
    intro p
    cases p
    · exact .init h4
    · exact .init h3
  obtain ⟨bs, hbs, hfit, hdec⟩ := hR.share 0 _ _ hheld true
  simp only [if_true] at hbs
  simp only [Bool.not_true, Bool.false_eq_true, if_false, if_true] at hdec
  have henc : encode 0 [bs] = .ok (UInt8.ofNat 0 :: ([bs].map frame).flatten) :=
    (encode_iff _ _ _).2 ⟨by norm_num, by simpa [Spec.Fits32] using hfit, rfl⟩
  have hde : decode (UInt8.ofNat 0 :: ([bs].map frame).flatten) = .ok (0, [bs]) :=
    (decode_iff _ _ _).2 ⟨rfl, henc⟩
  have hl : leaderInit V k ctx ap nonce ps i0 =
      .ok (.continued st0 0 (UInt8.ofNat 0 :: ([bs].map frame).flatten)) := by
    unfold leaderInit
    rw [hap, Except.ok_bind', hps, Except.ok_bind', hi0, Except.ok_bind', h3, Except.ok_bind']
    dsimp only
    rw [hbs, Except.ok_bind', henc]
    rfl
  have hh : helperInit V k ctx ap nonce ps i1 (UInt8.ofNat 0 :: ([bs].map frame).flatten) =
      catchAll (transition V ctx a [sh0, sh1] st1 0) := by
    unfold helperInit
    rw [hap, Except.ok_bind', hps, Except.ok_bind', hi1, Except.ok_bind', h4, Except.ok_bind']
    dsimp only
    rw [hde, Except.ok_bind']
    simp [getI, hdec]
  have hx : Spec.exchange V k ctx ap nonce ps i0 i1 kk = (do
      let x ← catchAll (transition V ctx a [sh0, sh1] st1 0)
      Spec.deliver V ctx ap kk (!false) (arr false x
        (.continued st0 0 (UInt8.ofNat 0 :: ([bs].map frame).flatten)) (1 + Spec.sent x))) := by
    unfold Spec.exchange
    rw [hl, Except.ok_bind']
    simp only [Spec.outbound]
    rw [hh]
    rfl
  rw [hx]
  obtain ⟨g1, g2⟩ := exchange_loop hR h2 hap (List.range (V.rounds - 1)) false 0
    (fun p => if p then st0 else st1) (fun p => if p then sh0 else sh1) kk 1
    (UInt8.ofNat 0 :: ([bs].map frame).flatten) hheld (by simp; omega) (by simp; omega)
  simp only [Except.ok_bind']
  refine ⟨fun os h => ?_, fun e h => g2 e h⟩
  obtain ⟨o, ho1, ho2⟩ := g1 os h
  refine ⟨o, ho1, ?_⟩
  have e1 : V.rounds + 1 = 1 + (List.range (V.rounds - 1)).length + 1 := by simp; omega
  have e2 : decide (V.rounds % 2 = 0) = if (List.range (V.rounds - 1)).length % 2 = 0 then false else !false := by
    simp only [List.length_range, Bool.not_false]
    split
    · rw [decide_eq_false_iff_not]; omega
    · rw [decide_eq_true_eq]; omega
  rw [e1, e2]
  exact ho2

end Vdaf.PingPong
