import Verif.Spec.PingPongRobust
import Verif.Props.PingPong
import Verif.Props.RandomOracle
import Verif.Props.Poplar1Game

/-! The game against the ping-pong topology is the game against the broadcast execution. -/

set_option linter.unusedSectionVars false

namespace Vdaf.WireGame
open Spec PingPong

/-! ### Games without memory, and simulations with one move for each move -/

section
variable {M R M' R' : Type}

/-- The first `q` moves of a game and the replies. -/
def run (respond : List (M × R) → M → R) (σ : List R → M) : ℕ → List (M × R)
  | 0 => []
  | q + 1 =>
    let hist := run respond σ q
    let move := σ (hist.map Prod.snd)
    hist ++ [(move, respond hist move)]

variable (toMove : List (M × R) → M → M') (conv : List (M × R) → M → R' → R) (σ : List R → M)

/-- The simulated moves and replies. -/
def shadow (rs : List R') : List (M × R) :=
  rs.foldl (fun H r => H ++ [(σ (H.map Prod.snd), conv H (σ (H.map Prod.snd)) r)]) []

/-- The simulator. -/
def simulator (rs : List R') : M' := toMove (shadow conv σ rs) (σ ((shadow conv σ rs).map Prod.snd))

theorem simulation {respond : List (M × R) → M → R} {respond' : List (M' × R') → M' → R'}
    (Inv : List (M × R) → List (M' × R') → Prop) (h0 : Inv [] [])
    (hstep : ∀ H H' mv, Inv H H' → conv H mv (respond' H' (toMove H mv)) = respond H mv ∧
      Inv (H ++ [(mv, respond H mv)]) (H' ++ [(toMove H mv, respond' H' (toMove H mv))])) (q : ℕ) :
    shadow conv σ ((run respond' (simulator toMove conv σ) q).map Prod.snd) = run respond σ q ∧
      Inv (run respond σ q) (run respond' (simulator toMove conv σ) q) := by
  induction q with
  | zero => exact ⟨rfl, h0⟩
  | succ q ih =>
    obtain ⟨h1, h2⟩ := ih
    obtain ⟨h3, h4⟩ := hstep _ _ (σ ((run respond σ q).map Prod.snd)) h2
    have hmv : simulator toMove conv σ ((run respond' (simulator toMove conv σ) q).map Prod.snd) =
        toMove (run respond σ q) (σ ((run respond σ q).map Prod.snd)) := by
      show toMove (shadow conv σ _) (σ ((shadow conv σ _).map Prod.snd)) = _
      rw [h1]
    unfold run
    dsimp only
    rw [hmv]
    refine ⟨?_, h4⟩
    unfold shadow at h1 ⊢
    rw [List.map_append, List.map_cons, List.map_nil, List.foldl_append, h1]
    simp only [List.foldl_cons, List.foldl_nil, h3]
end

/-! ### The exchange -/

section
variable {Meas AggParam PubShare InShare OutShare AggShare AggRes VState VShare VMsg : Type}
variable {V : VdafImpl Meas AggParam PubShare InShare OutShare AggShare AggRes VState VShare VMsg}
variable {vk ctx ap : Bytes} {r : WireReport} {a : AggParam}

theorem exchange_decodes {n : ℕ} {l h : PingPongState VState VShare OutShare} {c : ℕ}
    (he : exchange V vk ctx ap r.nonce r.publicShare r.leaderShare r.helperShare n = .ok (l, h, c))
    (hl : (outShare l).isSome) (hh : (outShare h).isSome) :
    ∃ pub s0 s1, V.decodePublicShare r.publicShare = .ok pub ∧ V.decodeInputShare 0 r.leaderShare = .ok s0 ∧
      V.decodeInputShare 1 r.helperShare = .ok s1 := by
  unfold exchange at he
  obtain ⟨l0, h1, he⟩ := Except.bind_eq_ok.1 he
  cases ho : outbound l0 with
  | none =>
    rw [ho] at he
    cases he
    cases hh
  | some m =>
    rw [ho] at he
    obtain ⟨h0', h2, he⟩ := Except.bind_eq_ok.1 he
    obtain ⟨_, pub, s0, _, _, _, _, -, k1, k2, -⟩ := leaderInit_ok h1 (by rintro rfl; cases ho)
    obtain ⟨_, pub', s1, _, _, _, _, _, -, -, k3, -⟩ := helperInit_ok h2 (by
      rintro rfl
      cases n with
      | zero => cases he; cases hh
      | succ n =>
        unfold deliver at he
        cases l0 <;> (cases he; cases hh))
    exact ⟨pub, s0, s1, k1, k2, k3⟩

theorem outputs_iff (hshares : V.shares = 2) (hrounds : 1 ≤ V.rounds) (hap : V.decodeAggParam ap = .ok a)
    (hready : ∀ pub s0 s1, PingPongReady V vk ctx a r.nonce pub s0 s1) {o0 o1 : OutShare} :
    exchangeOutputs V vk ctx r ap = some (o0, o1) ↔
      ∃ pub s0 s1, V.decodePublicShare r.publicShare = .ok pub ∧ V.decodeInputShare 0 r.leaderShare = .ok s0 ∧
        V.decodeInputShare 1 r.helperShare = .ok s1 ∧ broadcast V vk a ctx r.nonce pub [s0, s1] = .ok [o0, o1] := by
  unfold exchangeOutputs
  constructor
  · intro h
    cases he : exchange V vk ctx ap r.nonce r.publicShare r.leaderShare r.helperShare V.rounds with
    | error e => rw [he] at h; cases h
    | ok x =>
      obtain ⟨l, hh, c⟩ := x
      rw [he] at h
      dsimp only at h
      cases hl : outShare l with
      | none => rw [hl] at h; cases h
      | some a0 =>
        cases hh' : outShare hh with
        | none => rw [hl, hh'] at h; cases h
        | some a1 =>
          rw [hl, hh'] at h
          cases h
          obtain ⟨pub, s0, s1, k1, k2, k3⟩ := exchange_decodes he (by rw [hl]; rfl) (by rw [hh']; rfl)
          refine ⟨pub, s0, s1, k1, k2, k3, ?_⟩
          cases hb : broadcast V vk a ctx r.nonce pub [s0, s1] with
          | ok o =>
            obtain ⟨b0, b1, m, rfl, hx⟩ := C39_success V vk ctx r.nonce ap r.publicShare r.leaderShare r.helperShare a pub s0 s1
              hshares hrounds (hready _ _ _) hap k1 k2 k3 V.rounds le_rfl o hb
            rw [he] at hx
            split at hx <;> (cases hx; cases hl; cases hh'; rfl)
          | error e =>
            rcases C39_failure V vk ctx r.nonce ap r.publicShare r.leaderShare r.helperShare a pub s0 s1
              hshares hrounds (hready _ _ _) hap k1 k2 k3 V.rounds le_rfl e hb with ⟨l', h', c', hx, hx'⟩ | hx
            · rw [he] at hx
              cases hx
              rcases hx' with rfl | rfl
              · cases hl
              · cases hh'
            · rw [he] at hx
              cases hx
  · rintro ⟨pub, s0, s1, k1, k2, k3, hb⟩
    obtain ⟨b0, b1, m, hb', hx⟩ := C39_success V vk ctx r.nonce ap r.publicShare r.leaderShare r.helperShare a pub s0 s1
      hshares hrounds (hready _ _ _) hap k1 k2 k3 V.rounds le_rfl _ hb
    cases hb'
    rw [hx]
    by_cases hr : V.rounds % 2 = 1
    · rw [if_pos hr]; rfl
    · rw [if_neg hr]; rfl

/-! ### The simulator -/

/-- Whether the Aggregators verify the report. -/
def allowed (V : VdafImpl Meas AggParam PubShare InShare OutShare AggShare AggRes VState VShare VMsg)
    (H : List (WireMove × WireReply)) (r : WireReport) (ap : Bytes) : Option AggParam :=
  match V.decodeAggParam ap with
  | .ok a => if r.nonce.length = V.nonceSize ∧ V.isValid a (usedParams V r.nonce H) = .ok true then some a else none
  | .error _ => none

variable {M' R' : Type}

section
variable (V : VdafImpl Meas AggParam PubShare InShare OutShare AggShare AggRes VState VShare VMsg)
variable (ask : Bytes → M') (submit : WireReport → AggParam → M') (back : R' → WireReply)

/-- The move of the other game. -/
def simMove (H : List (WireMove × WireReply)) : WireMove → M'
  | .query m => ask m
  | .submit r ap =>
    match allowed V H r ap with
    | some a => submit r a
    | none => ask []

/-- The reply in this game. -/
def simReply (H : List (WireMove × WireReply)) (mv : WireMove) (r' : R') : WireReply :=
  match mv with
  | .query _ => back r'
  | .submit r ap =>
    match allowed V H r ap with
    | some _ => back r'
    | none => .refused
end

theorem allowed_congr {V' : VdafImpl Meas AggParam PubShare InShare OutShare AggShare AggRes VState VShare VMsg}
    (h1 : V.decodeAggParam = V'.decodeAggParam) (h2 : V.nonceSize = V'.nonceSize) (h3 : V.isValid = V'.isValid)
    (H : List (WireMove × WireReply)) (r : WireReport) (ap : Bytes) : allowed V H r ap = allowed V' H r ap := by
  have hu : usedParams V r.nonce H = usedParams V' r.nonce H := by
    unfold usedParams
    simp only [h1]
  unfold allowed
  rw [h1, h2, h3, hu]

theorem simMove_congr {V' : VdafImpl Meas AggParam PubShare InShare OutShare AggShare AggRes VState VShare VMsg}
    (h1 : V.decodeAggParam = V'.decodeAggParam) (h2 : V.nonceSize = V'.nonceSize) (h3 : V.isValid = V'.isValid)
    (ask : Bytes → M') (submit : WireReport → AggParam → M') : simMove V ask submit = simMove V' ask submit := by
  funext H mv
  cases mv with
  | query m => rfl
  | submit r ap =>
    unfold simMove
    dsimp only
    rw [allowed_congr h1 h2 h3]

theorem simReply_congr {V' : VdafImpl Meas AggParam PubShare InShare OutShare AggShare AggRes VState VShare VMsg}
    (h1 : V.decodeAggParam = V'.decodeAggParam) (h2 : V.nonceSize = V'.nonceSize) (h3 : V.isValid = V'.isValid)
    (back : R' → WireReply) : simReply V back = simReply V' back := by
  funext H mv r'
  cases mv with
  | query m => rfl
  | submit r ap =>
    unfold simReply
    dsimp only
    rw [allowed_congr h1 h2 h3]

theorem respond_allowed {T : Bytes → ℕ → UInt8} {H : List (WireMove × WireReply)} {r : WireReport} {ap : Bytes} {a : AggParam}
    (h : allowed V H r ap = some a) :
    wireRespond V T vk ctx H (.submit r ap) = .verdict (exchangeOutputs V vk ctx r ap).isSome ∧
      V.decodeAggParam ap = .ok a ∧ r.nonce.length = V.nonceSize ∧ V.isValid a (usedParams V r.nonce H) = .ok true := by
  unfold allowed at h
  unfold wireRespond
  dsimp only
  cases hd : V.decodeAggParam ap with
  | error e => rw [hd] at h; cases h
  | ok a' =>
    rw [hd] at h
    dsimp only at h
    split at h
    · next hc =>
      cases h
      refine ⟨?_, rfl, hc⟩
      dsimp only
      rw [if_pos hc]
    · cases h

theorem respond_refused {T : Bytes → ℕ → UInt8} {H : List (WireMove × WireReply)} {r : WireReport} {ap : Bytes}
    (h : allowed V H r ap = none) : wireRespond V T vk ctx H (.submit r ap) = .refused := by
  unfold allowed at h
  unfold wireRespond
  dsimp only
  cases hd : V.decodeAggParam ap with
  | error e => rfl
  | ok a' =>
    rw [hd] at h
    dsimp only at h ⊢
    split at h
    · cases h
    · next hc => rw [if_neg hc]

theorem wireRun_eq (T : Bytes → ℕ → UInt8) (σ : WireStrategy) (q : ℕ) :
    wireRun V T vk ctx σ q = run (wireRespond V T vk ctx) σ q := by
  induction q with
  | zero => rfl
  | succ q ih =>
    unfold wireRun run
    rw [ih]

theorem game {T : Bytes → ℕ → UInt8} {ask : Bytes → M'} {submit : WireReport → AggParam → M'} {back : R' → WireReply}
    {respond' : List (M' × R') → M' → R'} {prev' : List (M' × R') → Bytes → List AggParam}
    (h0 : ∀ n, prev' [] n = [])
    (hq : ∀ H' m, back (respond' H' (ask m)) = .output (T m))
    (hq' : ∀ H' m r n, prev' (H' ++ [(ask m, r)]) n = prev' H' n)
    (hs : ∀ H' r ap a, V.decodeAggParam ap = .ok a → r.nonce.length = V.nonceSize →
      V.isValid a (prev' H' r.nonce) = .ok true →
      back (respond' H' (submit r a)) = .verdict (exchangeOutputs V vk ctx r ap).isSome ∧
      ∀ n, prev' (H' ++ [(submit r a, respond' H' (submit r a))]) n = prev' H' n ++ if r.nonce = n then [a] else [])
    (σ : WireStrategy) (q : ℕ) (r : WireReport) (ap : Bytes)
    (h : (.submit r ap, .verdict true) ∈ wireRun V T vk ctx σ q) :
    ∃ a r', V.decodeAggParam ap = .ok a ∧ back r' = .verdict true ∧ r.nonce.length = V.nonceSize ∧
      (submit r a, r') ∈ run respond' (simulator (simMove V ask submit) (simReply V back) σ) q := by
  have := simulation (simMove V ask submit) (simReply V back) σ (respond := wireRespond V T vk ctx) (respond' := respond')
    (fun H H' => (∀ n, prev' H' n = usedParams V n H) ∧ ∀ r ap, (.submit r ap, .verdict true) ∈ H →
      ∃ a r', V.decodeAggParam ap = .ok a ∧ back r' = .verdict true ∧ r.nonce.length = V.nonceSize ∧ (submit r a, r') ∈ H')
    ⟨fun n => h0 n, fun r ap h => by cases h⟩ (fun H H' mv hI => ?_) q
  · rw [wireRun_eq] at h
    exact this.2.2 r ap h
  obtain ⟨h1, h2⟩ := hI
  have mono : ∀ {x : M' × R'} r ap, (.submit r ap, .verdict true) ∈ H →
      ∃ a r', V.decodeAggParam ap = .ok a ∧ back r' = .verdict true ∧ r.nonce.length = V.nonceSize ∧
        (submit r a, r') ∈ H' ++ [x] := by
    intro x r ap h
    obtain ⟨a, r', k1, k2, k3, k4⟩ := h2 r ap h
    exact ⟨a, r', k1, k2, k3, List.mem_append_left _ k4⟩
  cases mv with
  | query m =>
    refine ⟨hq H' m, fun n => ?_, fun r ap h => ?_⟩
    · show prev' (H' ++ [(ask m, _)]) n = _
      rw [hq', h1]
      unfold usedParams
      rw [List.filterMap_append]
      simp
    · rcases List.mem_append.1 h with h | h
      · exact mono r ap h
      · simp at h
  | submit w bp =>
    cases ha : allowed V H w bp with
    | none =>
      have hr := respond_refused (vk := vk) (ctx := ctx) (T := T) ha
      have e1 : simMove V ask submit H (.submit w bp) = ask [] := by
        unfold simMove
        dsimp only
        rw [ha]
      refine ⟨?_, fun n => ?_, fun r ap h => ?_⟩
      · rw [hr]
        unfold simReply
        dsimp only
        rw [ha]
      · rw [e1, hq', h1, hr]
        unfold usedParams
        rw [List.filterMap_append]
        simp
      · rw [hr] at h
        rcases List.mem_append.1 h with h | h
        · exact mono r ap h
        · simp at h
    | some a =>
      obtain ⟨hr, k1, k2, k3⟩ := respond_allowed (vk := vk) (ctx := ctx) (T := T) ha
      have e1 : simMove V ask submit H (.submit w bp) = submit w a := by
        unfold simMove
        dsimp only
        rw [ha]
      rw [← h1] at k3
      obtain ⟨g1, g2⟩ := hs H' w bp a k1 k2 k3
      refine ⟨?_, fun n => ?_, fun r ap h => ?_⟩
      · rw [hr, e1, ← g1]
        unfold simReply
        dsimp only
        rw [ha]
      · rw [e1, g2, h1, hr]
        unfold usedParams
        rw [List.filterMap_append]
        congr 1
        by_cases hn : w.nonce = n
        · simp [hn, k1, Except.toOption]
        · simp [hn]
      · rw [hr] at h
        rcases List.mem_append.1 h with h | h
        · exact mono r ap h
        · rw [List.mem_singleton] at h
          obtain ⟨hx, hy⟩ := Prod.ext_iff.1 h
          dsimp only at hx hy
          cases hx
          refine ⟨a, respond' H' (submit w a), k1, by rw [g1, hy], k2, ?_⟩
          rw [e1]
          exact List.mem_append_right _ (List.mem_singleton.2 rfl)

end
end Vdaf.WireGame
