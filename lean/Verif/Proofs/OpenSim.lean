import Verif.Proofs.OracleTree
import Verif.Proofs.Simulate

/-! Attackers that submit reports of their own have no advantage over those that do not: the latter compute what the honest
Aggregator does with such a report by themselves. -/

set_option linter.unusedSectionVars false

namespace Vdaf.Open
open Spec PingPong

/-! ### Blocks of moves -/

section
variable {C Reply : Type}

/-- The state after the replies, and the replies that belong to the current block of `L` moves -/
def step (L : ℕ) (next : C → List Reply → C) (x : C × List Reply) (r : Reply) : C × List Reply :=
  if (x.2 ++ [r]).length = L then (next x.1 (x.2 ++ [r]), []) else (x.1, x.2 ++ [r])

def run (L : ℕ) (next : C → List Reply → C) (c : C) (rs : List Reply) : C × List Reply :=
  rs.foldl (step L next) (c, [])

variable {L : ℕ} {next : C → List Reply → C} {c c' : C}

theorem run_short {rs : List Reply} (h : run L next c rs = (c', [])) : ∀ {pend : List Reply}, pend.length < L →
    run L next c (rs ++ pend) = (c', pend) := by
  intro pend
  induction pend using List.reverseRecOn with
  | nil => intro _; rw [List.append_nil]; exact h
  | append_singleton pend r ih =>
    intro hl
    rw [List.length_append, List.length_singleton] at hl
    unfold run
    rw [← List.append_assoc, List.foldl_append, show List.foldl (step L next) (c, []) (rs ++ pend) = (c', pend) from
      ih (by omega)]
    show step L next (c', pend) r = _
    unfold step
    rw [if_neg]
    simp only [List.length_append, List.length_singleton]
    omega

theorem run_full {rs : List Reply} (h : run L next c rs = (c', [])) {pend : List Reply} {r : Reply}
    (hl : pend.length + 1 = L) : run L next c (rs ++ (pend ++ [r])) = (next c' (pend ++ [r]), []) := by
  unfold run
  rw [← List.append_assoc, List.foldl_append, show List.foldl (step L next) (c, []) (rs ++ pend) = (c', pend) from
    run_short h (by omega)]
  show step L next (c', pend) r = _
  unfold step
  rw [if_pos]
  simpa using hl

end

/-! ### Trees -/

section
variable {α AggShare : Type}

/-- The next evaluation -/
def ask : OTree α → PeerMove
  | .ret _ => .turboShake []
  | .shake m _ => .turboShake m
  | .aes key block _ => .cipher key block

/-- Go on with a reply. -/
def advance : OTree α → PeerReply AggShare → OTree α
  | .shake _ k, .output s => k s
  | .aes _ _ k, .block b => k b
  | T, _ => T

/-- The reply of the oracles -/
def answer (p : Prims) : OTree α → PeerReply AggShare
  | .ret _ => .output (p.turboShake [] 1)
  | .shake m _ => .output (p.turboShake m 1)
  | .aes key block _ => .block (p.aes key block)

/-- The replies of the oracles -/
def answers (p : Prims) (T : OTree α) : ℕ → List (PeerReply AggShare)
  | 0 => []
  | j + 1 =>
    let l := answers p T j
    l ++ [answer p (l.foldl advance T)]

theorem answers_length (p : Prims) (T : OTree α) : ∀ j, (answers (AggShare := AggShare) p T j).length = j
  | 0 => rfl
  | j + 1 => by unfold answers; rw [List.length_append, answers_length p T j]; rfl

theorem advance_answer (p : Prims) (T : OTree α) {n : ℕ} (h : T.within (n + 1)) :
    (advance T (answer (AggShare := AggShare) p T)).within n ∧
      (advance T (answer (AggShare := AggShare) p T)).eval p = T.eval p := by
  cases T with
  | ret a => exact ⟨trivial, rfl⟩
  | shake m k => exact ⟨h _, rfl⟩
  | aes key block k => exact ⟨h _, rfl⟩

theorem walk_answers (p : Prims) (T : OTree α) : ∀ (j : ℕ) {n : ℕ}, T.within (j + n) →
    ((answers (AggShare := AggShare) p T j).foldl advance T).within n ∧
      ((answers (AggShare := AggShare) p T j).foldl advance T).eval p = T.eval p
  | 0, n, h => ⟨by rwa [Nat.zero_add] at h, rfl⟩
  | j + 1, n, h => by
    obtain ⟨h1, h2⟩ := walk_answers p T j (n := n + 1) (by rwa [Nat.add_comm n 1, ← Nat.add_assoc])
    unfold answers
    rw [List.foldl_append]
    obtain ⟨h3, h4⟩ := advance_answer (AggShare := AggShare) p _ h1
    exact ⟨h3, h4.trans h2⟩

theorem walk_end (p : Prims) (T : OTree α) {n : ℕ} (h : T.within n) :
    (answers (AggShare := AggShare) p T n).foldl advance T = .ret (T.eval p) := by
  obtain ⟨h1, h2⟩ := walk_answers (AggShare := AggShare) p T n (n := 0) h
  revert h1 h2
  generalize (answers (AggShare := AggShare) p T n).foldl advance T = T'
  intro h1 h2
  cases T' with
  | ret a => exact congrArg _ h2
  | shake m k => exact h1.elim
  | aes key block k => exact h1.elim

theorem answer_total (p : Prims) (T : OTree α) {a : Bytes} {B : List ℕ} {share : AggShare} :
    PeerReply.total a B share ≠ answer p T := by
  cases T <;> (intro h; cases h)

theorem answers_total (p : Prims) (T : OTree α) {a : Bytes} {B : List ℕ} {share : AggShare} : ∀ j,
    PeerReply.total a B share ∉ answers p T j
  | 0 => by simp [answers]
  | j + 1 => by
    unfold answers
    rw [List.mem_append, List.mem_singleton]
    rintro (h | h)
    · exact answers_total p T j h
    · exact answer_total p _ h

end

/-! ### The simulator -/

section
variable {Meas AggParam PubShare InShare OutShare AggShare AggRes VState VShare VMsg : Type}

/-- What the simulator knows -/
structure Known (AggParam VState VShare OutShare AggShare : Type) where
  replies : List (PeerReply AggShare)
  submitted : List WireReport
  own : PeerMemory AggParam VState VShare OutShare

/-- What the honest Aggregator has, together with what it has for the honest Clients' reports -/
def Known.with (s : Known AggParam VState VShare OutShare AggShare) (honest : PeerMemory AggParam VState VShare OutShare) :
    OpenMemory AggParam VState VShare OutShare := ⟨honest, s.submitted, s.own⟩

variable (V : Prims → VdafImpl Meas AggParam PubShare InShare OutShare AggShare AggRes VState VShare VMsg)
  (p0 : Prims) (A : Set Prims) (c : ℕ) (isLeader : Bool) (verifyKey ctx : Bytes)

/-- What the honest Aggregator does with a report of the attackers -/
abbrev Outcome (AggParam VState VShare OutShare AggShare : Type) :=
  Res (PeerReply AggShare × PeerMemory AggParam VState VShare OutShare)

open Classical in
/-- The computation of what the honest Aggregator does with a report of the attackers -/
noncomputable def treeOf (s : Known AggParam VState VShare OutShare AggShare) (move : PeerMove) :
    OTree (Outcome AggParam VState VShare OutShare AggShare) :=
  if h : Uses A c fun p => peerRespond (V p) p isLeader verifyKey ctx s.submitted s.own move then h.choose
  else .ret (.error .fuel)

/-- The computation for a move -/
noncomputable def treeFor (s : Known AggParam VState VShare OutShare AggShare) :
    OpenMove → OTree (Outcome AggParam VState VShare OutShare AggShare)
  | .start j aggParam inbound => treeOf V A c isLeader verifyKey ctx s (.start j aggParam inbound)
  | .deliver j aggParam inbound => treeOf V A c isLeader verifyKey ctx s (.deliver j aggParam inbound)
  | _ => .ret (.error .fuel)

/-- The first move of a block -/
def firstFor : OpenMove → PeerMove
  | .honest move => move
  | .collect aggParam ks _ => .collect aggParam ks
  | _ => .turboShake []

/-- What the simulator knows after a block -/
def finish (s : Known AggParam VState VShare OutShare AggShare) (r : PeerReply AggShare)
    (T : OTree (Outcome AggParam VState VShare OutShare AggShare)) :
    OpenMove → Res (Known AggParam VState VShare OutShare AggShare)
  | .honest _ => .ok { s with replies := s.replies ++ [r] }
  | .submit rep => .ok ⟨s.replies ++ [.sent []], s.submitted ++ [rep], s.own⟩
  | .start _ _ _ => match T with
    | .ret x => do
      let (reply, own) ← x
      return ⟨s.replies ++ [reply], s.submitted, own⟩
    | _ => .error .fuel
  | .deliver _ _ _ => match T with
    | .ret x => do
      let (reply, own) ← x
      return ⟨s.replies ++ [reply], s.submitted, own⟩
    | _ => .error .fuel
  | .collect aggParam _ js => match r, (V p0).decodeAggParam aggParam with
    | .total b ks share, .ok a => do
      let ownBatch := s.own.outs.filter fun o => o.2.1 = aggParam ∧ o.1 ∈ js
      let share ← forFold (ownBatch.map (·.2.2)) share fun x o => (V p0).aggUpdate a x o
      return { s with replies := s.replies ++ [.total b ks share] }
    | _, _ => .ok { s with replies := s.replies ++ [r] }

variable (σ : List (PeerReply AggShare) → OpenMove)

/-- The state after a block of replies; none if the attack has failed -/
noncomputable def nextState (x : Option (Known AggParam VState VShare OutShare AggShare)) (rs : List (PeerReply AggShare)) :
    Option (Known AggParam VState VShare OutShare AggShare) :=
  match x, rs with
  | some s, r :: rest =>
    (finish V p0 s r (rest.foldl advance (treeFor V A c isLeader verifyKey ctx s (σ s.replies))) (σ s.replies)).toOption
  | _, _ => none

/-- The next move in a block -/
noncomputable def nextMove (x : Option (Known AggParam VState VShare OutShare AggShare)) (rs : List (PeerReply AggShare)) :
    PeerMove :=
  match x, rs with
  | some s, [] => firstFor (σ s.replies)
  | some s, _ :: rest => ask (rest.foldl advance (treeFor V A c isLeader verifyKey ctx s (σ s.replies)))
  | none, _ => .turboShake []

/-- The state after the replies -/
noncomputable def stateOf (rs : List (PeerReply AggShare)) :
    Option (Known AggParam VState VShare OutShare AggShare) × List (PeerReply AggShare) :=
  run (c + 1) (nextState V p0 A c isLeader verifyKey ctx σ) (some ⟨[], [], .empty⟩) rs

/-- The strategy of the simulator -/
noncomputable def simulate (rs : List (PeerReply AggShare)) : PeerMove :=
  nextMove V A c isLeader verifyKey ctx σ (stateOf V p0 A c isLeader verifyKey ctx σ rs).1
    (stateOf V p0 A c isLeader verifyKey ctx σ rs).2

variable {V p0 A c isLeader verifyKey ctx σ} {p : Prims} {reports : List WireReport}

set_option quotPrecheck false

local notation "base" => Game.play (peerRespond (V p) p isLeader verifyKey ctx reports) .empty
  (simulate V p0 A c isLeader verifyKey ctx σ)
local notation "opn" => Game.play (openRespond (V p) p isLeader verifyKey ctx reports) ⟨.empty, [], .empty⟩ σ
local notation "after" => stateOf V p0 A c isLeader verifyKey ctx σ

theorem respond_ask {α : Type} (mem : PeerMemory AggParam VState VShare OutShare) (T : OTree α) :
    peerRespond (V p) p isLeader verifyKey ctx reports mem (ask T) = .ok (answer p T, mem) := by
  cases T <;> rfl

/-- The moves of a block -/
theorem block {i : ℕ} {b : List (PeerReply AggShare)} {mem mem' : PeerMemory AggParam VState VShare OutShare}
    {s : Known AggParam VState VShare OutShare AggShare} (hb : base i = .ok (b, mem)) (hs : after b = (some s, []))
    {r : PeerReply AggShare}
    (hr : peerRespond (V p) p isLeader verifyKey ctx reports mem (firstFor (σ s.replies)) = .ok (r, mem')) :
    ∀ j ≤ c, base (i + 1 + j) = .ok (b ++ r :: answers p (treeFor V A c isLeader verifyKey ctx s (σ s.replies)) j, mem') := by
  intro j
  induction j with
  | zero =>
    intro _
    refine Game.play_succ hb ?_
    unfold simulate
    rw [hs]
    exact hr
  | succ j ih =>
    intro hj
    have h1 := ih (by omega)
    rw [← Nat.add_assoc]
    unfold answers
    rw [← List.cons_append, ← List.append_assoc]
    refine Game.play_succ h1 ?_
    unfold simulate
    have h2 : after (b ++ r :: answers p (treeFor V A c isLeader verifyKey ctx s (σ s.replies)) j) =
        (some s, r :: answers p (treeFor V A c isLeader verifyKey ctx s (σ s.replies)) j) :=
      run_short hs (by rw [List.length_cons, answers_length]; omega)
    rw [h2]
    exact respond_ask mem' _

theorem block_end {i : ℕ} {b : List (PeerReply AggShare)} {mem mem' : PeerMemory AggParam VState VShare OutShare}
    {s : Known AggParam VState VShare OutShare AggShare} (hb : base i = .ok (b, mem)) (hs : after b = (some s, []))
    {r : PeerReply AggShare}
    (hr : peerRespond (V p) p isLeader verifyKey ctx reports mem (firstFor (σ s.replies)) = .ok (r, mem'))
    (hT : (treeFor V A c isLeader verifyKey ctx s (σ s.replies)).within c) :
    let T := treeFor V A c isLeader verifyKey ctx s (σ s.replies)
    base (i + (c + 1)) = .ok (b ++ r :: answers p T c, mem') ∧
      after (b ++ r :: answers p T c) = ((finish V p0 s r (.ret (T.eval p)) (σ s.replies)).toOption, []) := by
  intro T
  refine ⟨by rw [Nat.add_comm c 1, ← Nat.add_assoc]; exact block hb hs hr c le_rfl, ?_⟩
  rcases List.eq_nil_or_concat (r :: answers p T c) with h | ⟨l, x, h⟩
  · cases h
  · have hl : l.length + 1 = c + 1 := by
      have := congrArg List.length h
      simp only [List.length_cons, answers_length, List.concat_eq_append, List.length_append, List.length_nil] at this
      omega
    rw [h, List.concat_eq_append]
    refine (run_full hs hl).trans ?_
    rw [← List.concat_eq_append, ← h]
    show ((finish V p0 s r ((answers p T c).foldl advance T) (σ s.replies)).toOption, _) = _
    rw [walk_end p T hT]

/-- After a failure -/
theorem dead {i : ℕ} {b : List (PeerReply AggShare)} {mem : PeerMemory AggParam VState VShare OutShare}
    (hb : base i = .ok (b, mem)) (hs : after b = (none, [])) :
    ∃ b', base (i + (c + 1)) = .ok (b', mem) ∧ after b' = (none, []) := by
  have key : ∀ j ≤ c + 1, base (i + j) = .ok (b ++ List.replicate j (.output (p.turboShake [] 1)), mem) := by
    intro j
    induction j with
    | zero => intro _; rw [List.replicate_zero, List.append_nil]; exact hb
    | succ j ih =>
      intro hj
      rw [← Nat.add_assoc, List.replicate_succ', ← List.append_assoc]
      refine Game.play_succ (ih (by omega)) ?_
      unfold simulate
      rw [show after _ = _ from run_short hs (pend := List.replicate j (.output (p.turboShake [] 1)))
        (by rw [List.length_replicate]; omega)]
      rfl
  refine ⟨_, key (c + 1) le_rfl, ?_⟩
  rw [List.replicate_succ']
  refine (run_full hs (by simp)).trans ?_
  rfl

/-- The totals that are named in the replies of the base game are named in those of the simulated game. -/
def Named (b rs : List (PeerReply AggShare)) : Prop :=
  ∀ a B share, PeerReply.total a B share ∈ b → ∃ share', PeerReply.total a B share' ∈ rs

theorem aggregate_append (W : VdafImpl Meas AggParam PubShare InShare OutShare AggShare AggRes VState VShare VMsg)
    (a : AggParam) (xs ys : List OutShare) : aggregate W a (xs ++ ys) =
      aggregate W a xs >>= fun x => forFold ys x fun x o => W.aggUpdate a x o := by
  unfold aggregate
  cases W.aggInit a with
  | error e => rfl
  | ok x =>
    simp only [Except.ok_bind']
    induction xs generalizing x with
    | nil => rfl
    | cons y xs ih =>
      rw [List.cons_append, forFold_cons, forFold_cons]
      cases W.aggUpdate a x y with
      | error e => rfl
      | ok x' => simp only [Except.ok_bind']; exact ih x'

/-- What the honest Aggregator does with the attackers' reports is computed by at most `c` evaluations. -/
def Feasible (V : Prims → VdafImpl Meas AggParam PubShare InShare OutShare AggShare AggRes VState VShare VMsg)
    (A : Set Prims) (c : ℕ) (isLeader : Bool) (verifyKey ctx : Bytes) (σ : List (PeerReply AggShare) → OpenMove) : Prop :=
  ∀ s : Known AggParam VState VShare OutShare AggShare, ∀ j aggParam inbound,
    (σ s.replies = .start j aggParam inbound → Uses A c fun p =>
      peerRespond (V p) p isLeader verifyKey ctx s.submitted s.own (.start j aggParam inbound)) ∧
    (σ s.replies = .deliver j aggParam inbound → Uses A c fun p =>
      peerRespond (V p) p isLeader verifyKey ctx s.submitted s.own (.deliver j aggParam inbound))

theorem treeOf_within (s : Known AggParam VState VShare OutShare AggShare) (move : PeerMove) :
    (treeOf V A c isLeader verifyKey ctx s move).within c := by
  unfold treeOf
  split
  · next h => exact h.choose_spec.1
  · trivial

theorem treeFor_within (s : Known AggParam VState VShare OutShare AggShare) (move : OpenMove) :
    (treeFor V A c isLeader verifyKey ctx s move).within c := by
  cases move <;> first | exact treeOf_within s _ | trivial

theorem treeOf_eval (s : Known AggParam VState VShare OutShare AggShare) (move : PeerMove) (hp : p ∈ A)
    (h : Uses A c fun p => peerRespond (V p) p isLeader verifyKey ctx s.submitted s.own move) :
    (treeOf V A c isLeader verifyKey ctx s move).eval p =
      peerRespond (V p) p isLeader verifyKey ctx s.submitted s.own move := by
  unfold treeOf
  rw [dif_pos h]
  exact h.choose_spec.2 p hp

theorem named_answers {r r' : PeerReply AggShare} {α : Type} {T : OTree α}
    (h : ∀ a B share, PeerReply.total a B share = r → ∃ share', PeerReply.total a B share' = r') :
    Named (r :: answers p T c) [r'] := by
  intro a B share hm
  rcases List.mem_cons.1 hm with hm | hm
  · obtain ⟨share', h'⟩ := h a B share hm
    exact ⟨share', by rw [h']; exact List.mem_singleton_self _⟩
  · exact absurd hm (answers_total p T c)

variable (V p0 A c isLeader verifyKey ctx σ p reports) in
/-- One move of the attackers is simulated. -/
def StepOk (i : ℕ) (b : List (PeerReply AggShare)) (mem : PeerMemory AggParam VState VShare OutShare)
    (s : Known AggParam VState VShare OutShare AggShare) : Prop :=
    (∃ e, openRespond (V p) p isLeader verifyKey ctx reports (s.with mem) (σ s.replies) = .error e ∧
      ((∃ e', base (i + (c + 1)) = .error e') ∨ ∃ b' mem', base (i + (c + 1)) = .ok (b', mem') ∧ after b' = (none, []))) ∨
    ∃ r mem' b', openRespond (V p) p isLeader verifyKey ctx reports (s.with mem) (σ s.replies) = .ok (r, mem') ∧
      base (i + (c + 1)) = .ok (b ++ b', mem'.honest) ∧
      after (b ++ b') = (some ⟨s.replies ++ [r], mem'.submitted, mem'.own⟩, []) ∧ Named b' [r]

theorem step_ok (hf : Feasible V A c isLeader verifyKey ctx σ) (hp : p ∈ A)
    (hA : (V p).aggUpdate = (V p0).aggUpdate ∧ (V p).decodeAggParam = (V p0).decodeAggParam)
    {i : ℕ} {b : List (PeerReply AggShare)} {mem : PeerMemory AggParam VState VShare OutShare}
    {s : Known AggParam VState VShare OutShare AggShare} (hb : base i = .ok (b, mem)) (hs : after b = (some s, [])) :
    StepOk V p0 A c isLeader verifyKey ctx σ p reports i b mem s := by
  have hT := treeFor_within (V := V) (A := A) (c := c) (isLeader := isLeader) (verifyKey := verifyKey) (ctx := ctx) s
    (σ s.replies)
  have hend := fun {mem'} {r} hr => block_end (mem' := mem') (r := r) hb hs hr hT
  have herr : ∀ e, peerRespond (V p) p isLeader verifyKey ctx reports mem (firstFor (σ s.replies)) = .error e →
      ∃ e', base (i + (c + 1)) = .error e' := by
    intro e he
    refine ⟨e, ?_⟩
    rw [Nat.add_comm c 1, ← Nat.add_assoc]
    refine Game.play_error (Game.play_succ_error hb ?_) c
    unfold simulate
    rw [hs]
    exact he
  have hown : ∀ j aggParam inbound move, (move = .start j aggParam inbound ∨ move = .deliver j aggParam inbound) →
      firstFor (σ s.replies) = .turboShake [] →
      openRespond (V p) p isLeader verifyKey ctx reports (s.with mem) (σ s.replies) =
        (peerRespond (V p) p isLeader verifyKey ctx s.submitted s.own move >>= fun x =>
          pure (x.1, { s.with mem with own := x.2 })) →
      (treeFor V A c isLeader verifyKey ctx s (σ s.replies)).eval p =
        peerRespond (V p) p isLeader verifyKey ctx s.submitted s.own move →
      (∀ r (x : Res (PeerReply AggShare × PeerMemory AggParam VState VShare OutShare)),
        finish V p0 s r (.ret x) (σ s.replies) = x >>= fun x => pure ⟨s.replies ++ [x.1], s.submitted, x.2⟩) →
      StepOk V p0 A c isLeader verifyKey ctx σ p reports i b mem s := by
    intro j aggParam inbound move _ h1 h2 h3 h4
    have h5 : peerRespond (V p) p isLeader verifyKey ctx reports mem (firstFor (σ s.replies)) =
        .ok (.output (p.turboShake [] 1), mem) := by rw [h1]; rfl
    obtain ⟨k1, k2⟩ := hend h5
    rw [h4, h3] at k2
    unfold StepOk
    rw [h2]
    cases hx : peerRespond (V p) p isLeader verifyKey ctx s.submitted s.own move with
    | error e =>
      rw [hx] at k2
      exact .inl ⟨e, rfl, .inr ⟨_, _, k1, k2⟩⟩
    | ok x =>
      rw [hx] at k2
      exact .inr ⟨x.1, _, _, rfl, k1, k2, named_answers fun a B share h => by cases h⟩
  unfold StepOk at hown ⊢
  cases hm : σ s.replies with
  | honest move =>
    rw [hm] at hend herr
    cases hx : peerRespond (V p) p isLeader verifyKey ctx reports mem move with
    | error e =>
      refine .inl ⟨e, ?_, .inl (herr e hx)⟩
      show (peerRespond (V p) p isLeader verifyKey ctx reports mem move >>= _) = _
      rw [hx]
      rfl
    | ok x =>
      obtain ⟨r, mem'⟩ := x
      obtain ⟨k1, k2⟩ := hend hx
      refine .inr ⟨r, { s.with mem with honest := mem' }, _, ?_, k1, k2, named_answers fun a B share h => ⟨share, h⟩⟩
      show (peerRespond (V p) p isLeader verifyKey ctx reports mem move >>= _) = _
      rw [hx]
      rfl
  | submit rep =>
    rw [hm] at hend
    obtain ⟨k1, k2⟩ := hend (mem' := mem) (r := .output (p.turboShake [] 1)) rfl
    exact .inr ⟨_, _, _, rfl, k1, k2, named_answers fun a B share h => by cases h⟩
  | start j aggParam inbound =>
    have := hown j aggParam inbound _ (.inl rfl) (by rw [hm]; rfl) (by rw [hm]; rfl)
      (by rw [hm]; exact treeOf_eval s _ hp ((hf s j aggParam inbound).1 hm)) (fun r x => by rw [hm]; rfl)
    rwa [hm] at this
  | deliver j aggParam inbound =>
    have := hown j aggParam inbound _ (.inr rfl) (by rw [hm]; rfl) (by rw [hm]; rfl)
      (by rw [hm]; exact treeOf_eval s _ hp ((hf s j aggParam inbound).2 hm)) (fun r x => by rw [hm]; rfl)
    rwa [hm] at this
  | collect aggParam ks js =>
    rw [hm] at hend herr
    cases hd : (V p).decodeAggParam aggParam with
    | error e =>
      have h5 : peerRespond (V p) p isLeader verifyKey ctx reports mem (.collect aggParam ks) = .ok (.refused, mem) := by
        unfold peerRespond
        dsimp only
        rw [hd]
        rfl
      obtain ⟨k1, k2⟩ := hend h5
      refine .inr ⟨.refused, s.with mem, _, ?_, k1, k2, named_answers fun a B share h => by cases h⟩
      unfold openRespond
      dsimp only
      rw [hd]
      rfl
    | ok a =>
      have h5 : peerRespond (V p) p isLeader verifyKey ctx reports mem (.collect aggParam ks) =
          (aggregate (V p) a ((mem.outs.filter fun o => o.2.1 = aggParam ∧ o.1 ∈ ks).map (·.2.2)) >>= fun share =>
            pure (.total aggParam ((mem.outs.filter fun o => o.2.1 = aggParam ∧ o.1 ∈ ks).map (·.1)) share, mem)) := by
        unfold peerRespond
        dsimp only
        rw [hd]
      have h6 : openRespond (V p) p isLeader verifyKey ctx reports (s.with mem) (.collect aggParam ks js) =
          (aggregate (V p) a ((mem.outs.filter fun o => o.2.1 = aggParam ∧ o.1 ∈ ks).map (·.2.2) ++
              (s.own.outs.filter fun o => o.2.1 = aggParam ∧ o.1 ∈ js).map (·.2.2)) >>= fun share =>
            pure (.total aggParam ((mem.outs.filter fun o => o.2.1 = aggParam ∧ o.1 ∈ ks).map (·.1)) share,
              s.with mem)) := by
        unfold openRespond
        dsimp only
        show (match (V p).decodeAggParam aggParam with | .ok a => _ | .error _ => _) = _
        rw [hd]
        rfl
      rw [h6, aggregate_append]
      cases hx : aggregate (V p) a ((mem.outs.filter fun o => o.2.1 = aggParam ∧ o.1 ∈ ks).map (·.2.2)) with
      | error e =>
        rw [hx] at h5
        exact .inl ⟨e, rfl, .inl (herr e h5)⟩
      | ok share =>
        rw [hx] at h5
        obtain ⟨k1, k2⟩ := hend h5
        have h7 : finish V p0 s (.total aggParam ((mem.outs.filter fun o => o.2.1 = aggParam ∧ o.1 ∈ ks).map (·.1)) share)
            (.ret ((treeFor V A c isLeader verifyKey ctx s (.collect aggParam ks js)).eval p)) (.collect aggParam ks js) =
            (forFold ((s.own.outs.filter fun o => o.2.1 = aggParam ∧ o.1 ∈ js).map (·.2.2)) share
              (fun x o => (V p).aggUpdate a x o) >>= fun share =>
                pure { s with replies := s.replies ++ [.total aggParam
                  ((mem.outs.filter fun o => o.2.1 = aggParam ∧ o.1 ∈ ks).map (·.1)) share] }) := by
          unfold finish
          dsimp only
          rw [← hA.2, hd, hA.1]
        rw [h7] at k2
        simp only [Except.ok_bind']
        cases hy : forFold ((s.own.outs.filter fun o => o.2.1 = aggParam ∧ o.1 ∈ js).map (·.2.2)) share
              (fun x o => (V p).aggUpdate a x o) with
        | error e =>
          rw [hy] at k2
          exact .inl ⟨e, rfl, .inr ⟨_, _, k1, k2⟩⟩
        | ok share' =>
          rw [hy] at k2
          refine .inr ⟨_, _, _, rfl, k1, k2, named_answers fun a B share h => ?_⟩
          cases h
          exact ⟨share', rfl⟩

/-- The whole attack -/
theorem simulation (hf : Feasible V A c isLeader verifyKey ctx σ) (hp : p ∈ A)
    (hA : (V p).aggUpdate = (V p0).aggUpdate ∧ (V p).decodeAggParam = (V p0).decodeAggParam) (q : ℕ) :
    (∃ e, opn q = .error e ∧ ((∃ e', base ((c + 1) * q) = .error e') ∨
      ∃ b mem, base ((c + 1) * q) = .ok (b, mem) ∧ after b = (none, []))) ∨
    ∃ rs mem b, opn q = .ok (rs, mem) ∧ base ((c + 1) * q) = .ok (b, mem.honest) ∧
      after b = (some ⟨rs, mem.submitted, mem.own⟩, []) ∧ Named b rs := by
  induction q with
  | zero => exact .inr ⟨_, _, [], rfl, rfl, rfl, fun a B share h => by cases h⟩
  | succ q ih =>
    rw [Nat.mul_succ]
    rcases ih with ⟨e, h1, h2⟩ | ⟨rs, mem, b, h1, h2, h3, h4⟩
    · refine .inl ⟨e, Game.play_error h1 1, ?_⟩
      rcases h2 with ⟨e', h2⟩ | ⟨b, mem, h2, h3⟩
      · exact .inl ⟨e', Game.play_error h2 _⟩
      · obtain ⟨b', h4, h5⟩ := dead h2 h3
        exact .inr ⟨b', mem, h4, h5⟩
    · rcases step_ok hf hp hA h2 h3 with ⟨e, k1, k2⟩ | ⟨r, mem', b', k1, k2, k3, k4⟩
      · exact .inl ⟨e, Game.play_succ_error h1 k1, k2⟩
      · refine .inr ⟨rs ++ [r], mem', b ++ b', Game.play_succ h1 k1, k2, k3, fun a B share h => ?_⟩
        rcases List.mem_append.1 h with h | h
        · obtain ⟨s', h'⟩ := h4 a B share h
          exact ⟨s', List.mem_append_left _ h'⟩
        · obtain ⟨s', h'⟩ := k4 a B share h
          exact ⟨s', List.mem_append_right _ h'⟩

end
end Vdaf.Open
