import Verif.Proofs.Py
import Mathlib.Data.List.Basic

/-! Games in which one party makes moves that depend on the replies up to now, and the simulation of one such game in another
one, with three moves for each move. -/

namespace Vdaf.Game

variable {Mem Move Reply Mem' Move' Reply' C : Type}

/-- The first `q` moves of a game. -/
def play (respond : Mem → Move → Res (Reply × Mem)) (m0 : Mem) (σ : List Reply → Move) : ℕ → Res (List Reply × Mem)
  | 0 => return ([], m0)
  | q + 1 => do
    let (rs, mem) ← play respond m0 σ q
    let (r, mem) ← respond mem (σ rs)
    return (rs ++ [r], mem)

theorem play_succ {respond : Mem → Move → Res (Reply × Mem)} {m0 mem mem' : Mem} {σ : List Reply → Move} {q : ℕ}
    {rs : List Reply} {r : Reply} (h : play respond m0 σ q = .ok (rs, mem)) (h' : respond mem (σ rs) = .ok (r, mem')) :
    play respond m0 σ (q + 1) = .ok (rs ++ [r], mem') := by
  unfold play
  rw [h]
  simp only [Except.ok_bind', h']
  rfl

theorem play_succ_error {respond : Mem → Move → Res (Reply × Mem)} {m0 mem : Mem} {σ : List Reply → Move} {q : ℕ}
    {rs : List Reply} {e : Err} (h : play respond m0 σ q = .ok (rs, mem)) (h' : respond mem (σ rs) = .error e) :
    play respond m0 σ (q + 1) = .error e := by
  unfold play
  rw [h]
  simp only [Except.ok_bind', h']
  rfl

theorem play_error {respond : Mem → Move → Res (Reply × Mem)} {m0 : Mem} {σ : List Reply → Move} {q : ℕ}
    {e : Err} (h : play respond m0 σ q = .error e) (i : ℕ) : play respond m0 σ (q + i) = .error e := by
  induction i with
  | zero => exact h
  | succ i ih => rw [← Nat.add_assoc]; unfold play; rw [ih]; rfl

/-- The simulator: its three moves for one move of the simulated game, and its state afterwards. -/
structure Sim (C Move Reply : Type) where
  init : C
  first : C → Move
  second : C → Reply → Move
  third : C → Reply → Reply → Move
  next : C → Reply → Reply → Reply → C

variable (S : Sim C Move Reply)

/-- The state after the replies, and the replies that belong to the current move. -/
def Sim.run (S : Sim C Move Reply) (c : C) : List Reply → C × List Reply
  | r1 :: r2 :: r3 :: rs => S.run (S.next c r1 r2 r3) rs
  | rs => (c, rs)

/-- The simulator as a strategy. -/
def Sim.strategy (S : Sim C Move Reply) (rs : List Reply) : Move :=
  match S.run S.init rs with
  | (c, []) => S.first c
  | (c, [r1]) => S.second c r1
  | (c, r1 :: r2 :: _) => S.third c r1 r2

theorem Sim.run_append (l : List Reply) : ∀ {c c' : C} (rs : List Reply), S.run c rs = (c', []) →
    S.run c (rs ++ l) = S.run c' l
  | c, c', [], h => by unfold Sim.run at h; cases h; rfl
  | c, c', [_], h => by unfold Sim.run at h; cases h
  | c, c', [_, _], h => by unfold Sim.run at h; cases h
  | c, c', r1 :: r2 :: r3 :: rs, h => by
    show S.run (S.next c r1 r2 r3) (rs ++ l) = _
    exact Sim.run_append l rs h

theorem Sim.strategy_first {c : C} {rs : List Reply} (h : S.run S.init rs = (c, [])) : S.strategy rs = S.first c := by
  unfold Sim.strategy
  rw [h]

theorem Sim.strategy_second {c : C} {rs : List Reply} (h : S.run S.init rs = (c, [])) (r1 : Reply) :
    S.strategy (rs ++ [r1]) = S.second c r1 := by
  unfold Sim.strategy
  rw [S.run_append [r1] rs h]
  rfl

theorem Sim.strategy_third {c : C} {rs : List Reply} (h : S.run S.init rs = (c, [])) (r1 r2 : Reply) :
    S.strategy (rs ++ [r1] ++ [r2]) = S.third c r1 r2 := by
  unfold Sim.strategy
  rw [List.append_assoc, S.run_append _ rs h]
  rfl

theorem Sim.run_next {c : C} {rs : List Reply} (h : S.run S.init rs = (c, [])) (r1 r2 r3 : Reply) :
    S.run S.init (rs ++ [r1] ++ [r2] ++ [r3]) = (S.next c r1 r2 r3, []) := by
  rw [List.append_assoc, List.append_assoc, S.run_append _ rs h]
  rfl

/-- The three moves of the simulator for one move. -/
def Sim.step (S : Sim C Move Reply) (respond : Mem → Move → Res (Reply × Mem)) (c : C) (mem : Mem) :
    Res (Reply × Reply × Reply × Mem) := do
  let (r1, mem) ← respond mem (S.first c)
  let (r2, mem) ← respond mem (S.second c r1)
  let (r3, mem) ← respond mem (S.third c r1 r2)
  return (r1, r2, r3, mem)

/-- The simulation: the simulator's three moves and the move in the simulated game either both fail, or lead to related
states again. -/
theorem simulate {respond : Mem → Move → Res (Reply × Mem)} {m0 : Mem} {respond' : Mem' → Move' → Res (Reply' × Mem')}
    {m0' : Mem'} {σ' : List Reply' → Move'} {out : C → List Reply'} {R : List Reply → C → Mem → Mem' → Prop}
    (h0 : R [] S.init m0 m0') (hout : out S.init = [])
    (step : ∀ rs c mem mem', S.run S.init rs = (c, []) → R rs c mem mem' →
      ((∃ e, S.step respond c mem = .error e) ∧ ∃ e, respond' mem' (σ' (out c)) = .error e) ∨
      ∃ r1 r2 r3 mem3 r' mem'', S.step respond c mem = .ok (r1, r2, r3, mem3) ∧
        respond' mem' (σ' (out c)) = .ok (r', mem'') ∧ out (S.next c r1 r2 r3) = out c ++ [r'] ∧
        R (rs ++ [r1] ++ [r2] ++ [r3]) (S.next c r1 r2 r3) mem3 mem'') (q : ℕ) :
    ((∃ e, play respond m0 S.strategy (3 * q) = .error e) ∧ ∃ e, play respond' m0' σ' q = .error e) ∨
      ∃ rs c mem mem', play respond m0 S.strategy (3 * q) = .ok (rs, mem) ∧ S.run S.init rs = (c, []) ∧
        play respond' m0' σ' q = .ok (out c, mem') ∧ R rs c mem mem' := by
  induction q with
  | zero => exact .inr ⟨[], S.init, m0, m0', rfl, rfl, by rw [hout]; rfl, h0⟩
  | succ q ih =>
    rcases ih with ⟨⟨e, h1⟩, e', h2⟩ | ⟨rs, c, mem, mem', h1, h2, h3, h4⟩
    · exact .inl ⟨⟨e, play_error h1 3⟩, e', play_error h2 1⟩
    rcases step rs c mem mem' h2 h4 with ⟨⟨e, k1⟩, e', k2⟩ | ⟨r1, r2, r3, mem3, r', mem'', k1, k2, k3, k4⟩
    · refine .inl ⟨⟨e, ?_⟩, e', play_succ_error h3 k2⟩
      unfold Sim.step at k1
      cases k3 : respond mem (S.first c) with
      | error e1 =>
        rw [k3] at k1
        cases k1
        exact play_error (play_succ_error h1 (by rw [S.strategy_first h2]; exact k3)) 2
      | ok x =>
        obtain ⟨r1, m1⟩ := x
        rw [k3] at k1
        simp only [Except.ok_bind'] at k1
        have p1 := play_succ h1 (by rw [S.strategy_first h2]; exact k3)
        cases k4 : respond m1 (S.second c r1) with
        | error e1 =>
          rw [k4] at k1
          cases k1
          exact play_error (play_succ_error p1 (by rw [S.strategy_second h2]; exact k4)) 1
        | ok x =>
          obtain ⟨r2, m2⟩ := x
          rw [k4] at k1
          simp only [Except.ok_bind'] at k1
          have p2 := play_succ p1 (by rw [S.strategy_second h2]; exact k4)
          cases k5 : respond m2 (S.third c r1 r2) with
          | error e1 =>
            rw [k5] at k1
            cases k1
            exact play_succ_error p2 (by rw [S.strategy_third h2]; exact k5)
          | ok x => rw [k5] at k1; cases k1
    · unfold Sim.step at k1
      rw [Except.bind_eq_ok] at k1; obtain ⟨⟨s1, m1⟩, j1, k1⟩ := k1
      rw [Except.bind_eq_ok] at k1; obtain ⟨⟨s2, m2⟩, j2, k1⟩ := k1
      rw [Except.bind_eq_ok] at k1; obtain ⟨⟨s3, m3⟩, j3, k1⟩ := k1
      cases k1
      refine .inr ⟨_, _, mem3, mem'', play_succ (mem := m2) (play_succ (mem := m1) (play_succ h1 ?_) ?_) ?_, S.run_next h2 r1 r2 r3, ?_, k4⟩
      · rw [S.strategy_first h2]; exact j1
      · rw [S.strategy_second h2]; exact j2
      · rw [S.strategy_third h2]; exact j3
      · rw [k3]
        exact play_succ h3 k2

end Vdaf.Game
