import Verif.Proofs.PingPongPoplar1
import Verif.Proofs.PingPongSim
import Verif.Proofs.Poplar1Agg

/-! The attack on Poplar1 in the ping-pong topology as an attack in the sense of `Spec/Poplar1Oracle.lean`. -/

set_option linter.unusedSectionVars false

namespace Vdaf.PopPeer
open Spec PingPong Poplar1

/-- What the simulator remembers: the replies up to now, the aggregation parameters with which the verification of a report
has begun, the verifications for which the honest Aggregator waits for a message, and those that have succeeded. -/
structure SimState where
  out : List (PeerReply FieldVec)
  previous : ℕ → List Poplar1AggParam
  waiting : List (ℕ × Bytes)
  ids : List (ℕ × Bytes)

/-- What the simulator does for a move -/
inductive SimPlan where
  | say (r : PeerReply FieldVec)
  | ask (m : TreeMove)
  | collect (ap : Bytes) (a : Poplar1AggParam) (ks : List ℕ)
  | start (k : ℕ) (ap : Bytes) (a : Poplar1AggParam) (inbound : Bytes)
  | answer (k : ℕ) (ap : Bytes) (level : ℕ) (m : Option FieldVec) (e : Option Bytes)

variable (bits : ℕ) (isLeader : Bool) (n : ℕ)

/-- Add an aggregation parameter. -/
def addParam (prev : ℕ → List Poplar1AggParam) (k : ℕ) (a : Poplar1AggParam) : ℕ → List Poplar1AggParam :=
  fun k' => if k' = k then prev k ++ [a] else prev k'

/-- What to do for a move, the new aggregation parameters, and the verifications that wait as before -/
def plan (c : SimState) : PeerMove → SimPlan × (ℕ → List Poplar1AggParam) × List (ℕ × Bytes)
  | .turboShake m => (.ask (.turboShake m), c.previous, c.waiting)
  | .cipher key block => (.ask (.cipher key block), c.previous, c.waiting)
  | .start k ap inbound =>
    match decodeAggParam ap with
    | .ok a =>
      if k < n ∧ isValid a (c.previous k) = .ok true then
        (if a.1 < bits then .start k ap a inbound else .say .rejected, addParam c.previous k a, c.waiting)
      else (.say .refused, c.previous, c.waiting)
    | .error _ => (.say .refused, c.previous, c.waiting)
  | .deliver k ap inbound =>
    if (k, ap) ∈ c.waiting then
      match decodeAggParam ap with
      | .ok a =>
        (if isLeader then match leaderFirst ⟨poplarIdpf bits⟩ a.1 inbound with
          | .ok (m, e) => .answer k ap a.1 m (some e)
          | .error _ => .say .rejected
        else match helperLast ⟨poplarIdpf bits⟩ a.1 inbound with
          | .ok m => .answer k ap a.1 m none
          | .error _ => .say .rejected, c.previous, c.waiting.filter (· ≠ (k, ap)))
      | .error _ => (.say .refused, c.previous, c.waiting)
    else (.say .refused, c.previous, c.waiting)
  | .collect ap ks =>
    match decodeAggParam ap with
    | .ok a => (.collect ap a ks, c.previous, c.waiting)
    | .error _ => (.say .refused, c.previous, c.waiting)

/-- A move without effect -/
def noop : TreeMove := .start n (0, [])

/-- The first move -/
def planFirst : SimPlan → TreeMove
  | .say _ => noop n
  | .ask m => m
  | .collect _ a ks => .collect a ks
  | .start k _ a _ => .start k a
  | .answer k _ level m _ => .send k level m

/-- The second move -/
def planSecond (r1 : TreeReply) : SimPlan → TreeMove
  | .start k _ a inbound =>
    if isLeader then noop n
    else match r1 with
      | .started _ _ own =>
        match helperFirst ⟨poplarIdpf bits⟩ a.1 own inbound with
        | .ok (m, _) => .send k a.1 m
        | .error _ => noop n
      | _ => noop n
  | .answer k _ level _ (some e) =>
    match r1 with
    | .continued sh =>
      match leaderSecond ⟨poplarIdpf bits⟩ level sh e with
      | .ok (m, _) => .send k level m
      | .error _ => noop n
    | _ => noop n
  | _ => noop n

/-- The simulated reply, and whether the verification waits now, or has succeeded -/
def planResult (ids : List (ℕ × Bytes)) (r1 r2 : TreeReply) : SimPlan → PeerReply FieldVec × List (ℕ × Bytes) × List (ℕ × Bytes)
  | .say r => (r, [], [])
  | .ask _ => (match r1 with
    | .output s => .output s
    | .block b => .block b
    | _ => .refused, [], [])
  | .collect ap _ ks => (match r1 with
    | .total _ _ share => .total ap ((ids.filter fun x => x.2 = ap ∧ x.1 ∈ ks).map Prod.fst) share
    | _ => .refused, [], [])
  | .start k ap a inbound =>
    match r1 with
    | .started _ _ own =>
      if isLeader then match firstOut own with
        | .ok ob => (.sent ob, [(k, ap)], [])
        | .error _ => (.rejected, [], [])
      else match helperFirst ⟨poplarIdpf bits⟩ a.1 own inbound, r2 with
        | .ok (_, b), .continued sh =>
          match helperOut b sh with
          | .ok ob => (.sent ob, [(k, ap)], [])
          | .error _ => (.rejected, [], [])
        | _, _ => (.rejected, [], [])
    | _ => (.rejected, [], [])
  | .answer k ap level _ (some e) =>
    match r1 with
    | .continued sh =>
      match leaderSecond ⟨poplarIdpf bits⟩ level sh e, r2 with
      | .ok (_, ob), .accepted => (.finished (some ob), [], [(k, ap)])
      | _, _ => (.rejected, [], [])
    | _ => (.rejected, [], [])
  | .answer k ap _ _ none =>
    match r1 with
    | .accepted => (.finished none, [], [(k, ap)])
    | _ => (.rejected, [], [])

/-- The simulator -/
def simulator (σ : List (PeerReply FieldVec) → PeerMove) : Game.Sim SimState TreeMove TreeReply where
  init := ⟨[], fun _ => [], [], []⟩
  first c := planFirst n (plan bits isLeader n c (σ c.out)).1
  second c r1 := planSecond bits isLeader n r1 (plan bits isLeader n c (σ c.out)).1
  third _ _ _ := noop n
  next c r1 r2 _ :=
    let p := plan bits isLeader n c (σ c.out)
    let x := planResult bits isLeader c.ids r1 r2 p.1
    ⟨c.out ++ [x.1], p.2.1, x.2.1 ++ p.2.2, c.ids ++ x.2.2⟩

/-! ### The relation -/

abbrev PMem := PeerMemory Poplar1AggParam Poplar1VerifyState FieldVec FieldVec

theorem out_iff {mem : Memory} {a : Poplar1AggParam} {k : ℕ} {o : FieldVec} :
    mem.out a k = some o ↔ mem k a.1 = some (a, .done o) := by
  unfold Memory.out
  constructor
  · intro h
    split at h
    · split at h
      · rename_i h1 h2; cases h; rw [h1, h2]
      · cases h
    · cases h
  · intro h
    rw [h]
    simp

structure Core (prev : ℕ → List Poplar1AggParam) (wait acc : List (ℕ × Bytes)) (mem : Memory) (mem' : PMem) : Prop where
  previous : mem'.previous = prev
  sorted : ∀ k, (prev k).Pairwise fun a b => a.1 < b.1
  begun : ∀ k l x, mem k l = some x → k < n ∧ x.1 ∈ prev k ∧ x.1.1 = l
  waiting : ∀ k ap, (k, ap) ∈ wait → ∃ a st m, decodeAggParam ap = .ok a ∧ mem k a.1 = some (a, .running st) ∧
    mem'.states k ap = .continued st (if isLeader then 0 else 1) m ∧ st.level = a.1 ∧
    st.step = if isLeader then .evaluate else .reveal
  idle : ∀ k ap, (k, ap) ∉ wait → ∀ st r m, mem'.states k ap ≠ .continued st r m
  ids : mem'.outs.map (fun x => (x.1, x.2.1)) = acc
  nodup : acc.Nodup
  outs : ∀ k ap o, (k, ap, o) ∈ mem'.outs ↔ ∃ a, decodeAggParam ap = .ok a ∧ mem k a.1 = some (a, .done o)

variable {bits isLeader n}

theorem decodeAggParam_inj {x y : Bytes} {a : Poplar1AggParam} (hx : decodeAggParam x = .ok a)
    (hy : decodeAggParam y = .ok a) : x = y := by
  have h1 := (decodeAggParam_iff.1 hx).2
  have h2 := (decodeAggParam_iff.1 hy).2
  rw [h1] at h2
  cases h2
  rfl

theorem Core.init : Core isLeader n (fun _ => []) [] [] (fun _ _ => none) .empty where
  previous := rfl
  sorted _ := List.Pairwise.nil
  begun k l x h := by cases h
  waiting k ap h := by cases h
  idle k ap _ st r m h := by cases h
  ids := rfl
  nodup := List.nodup_nil
  outs k ap o := by simp [PeerMemory.empty]

/-- The verification of report `k` for `a` changes. -/
theorem Core.update {prev prev2 : ℕ → List Poplar1AggParam} {waiting waiting2 ids ids2 : List (ℕ × Bytes)} {mem mem2 : Memory}
    {mem' mem0 : PMem} (C : Core isLeader n prev waiting ids mem mem') {k : ℕ} {ap : Bytes} {a : Poplar1AggParam}
    (ha : decodeAggParam ap = .ok a) (hkn : k < n) {s : PState}
    (hmem0 : mem0.states = mem'.states ∧ mem0.outs = mem'.outs ∧ mem0.previous = prev2)
    (hsorted : ∀ k, (prev2 k).Pairwise fun a b => a.1 < b.1) (hprev : ∀ k', prev k' ⊆ prev2 k') (hak : a ∈ prev2 k)
    (hold : ∀ a' p, mem k a.1 = some (a', p) → a' = a ∧ ∀ o, p ≠ .done o)
    (hmem : ∀ k' l, ¬ (k' = k ∧ l = a.1) → mem2 k' l = mem k' l)
    (hnewa : ∀ x, mem2 k a.1 = some x → x.1 = a)
    (hnew : ∀ a' o, mem2 k a.1 = some (a', .done o) ↔ a' = a ∧ outShare s = some o)
    (hw : ∀ i, i ≠ (k, ap) → (i ∈ waiting2 ↔ i ∈ waiting))
    (hw1 : (k, ap) ∈ waiting2 → ∃ st m, mem2 k a.1 = some (a, .running st) ∧
      s = .continued st (if isLeader then 0 else 1) m ∧ st.level = a.1 ∧ st.step = if isLeader then .evaluate else .reveal)
    (hw2 : (k, ap) ∉ waiting2 → ∀ st r m, s ≠ .continued st r m)
    (hids : ids2 = ids ++ if (outShare s).isSome then [(k, ap)] else []) :
    Core isLeader n prev2 waiting2 ids2 mem2 (mem0.put k ap s) where
  previous := hmem0.2.2
  sorted := hsorted
  begun k' l x hx := by
    by_cases hh : k' = k ∧ l = a.1
    · obtain ⟨rfl, rfl⟩ := hh
      rw [hnewa x hx]
      exact ⟨hkn, hak, rfl⟩
    · rw [hmem k' l hh] at hx
      obtain ⟨h1, hb, h2⟩ := C.begun k' l x hx
      exact ⟨h1, hprev k' hb, h2⟩
  waiting k' ap' hi := by
    show ∃ b st m, _ ∧ _ ∧ (if k' = k ∧ ap' = ap then s else mem0.states k' ap') = _ ∧ _
    by_cases hik : (k', ap') = (k, ap)
    · cases hik
      obtain ⟨st, m, h1, h2, h3⟩ := hw1 hi
      exact ⟨a, st, m, ha, h1, by rw [if_pos ⟨rfl, rfl⟩, h2], h3⟩
    · obtain ⟨b, st, m, h1, h2, h3, h4⟩ := C.waiting k' ap' ((hw _ hik).1 hi)
      refine ⟨b, st, m, h1, ?_, ?_, h4⟩
      · rw [hmem, h2]
        rintro ⟨rfl, hl⟩
        rw [hl] at h2
        have := (hold b _ h2).1
        subst this
        exact hik (by rw [decodeAggParam_inj h1 ha])
      · rw [if_neg (fun h => hik (by rw [h.1, h.2])), hmem0.1, h3]
  idle k' ap' hi := by
    show ∀ st r m, (if k' = k ∧ ap' = ap then s else mem0.states k' ap') ≠ _
    by_cases hik : (k', ap') = (k, ap)
    · cases hik
      rw [if_pos ⟨rfl, rfl⟩]
      exact hw2 hi
    · rw [if_neg (fun h => hik (by rw [h.1, h.2])), hmem0.1]
      exact C.idle k' ap' fun h => hi ((hw _ hik).2 h)
  ids := by
    show (mem0.outs ++ _).map _ = _
    rw [hids, List.map_append, hmem0.2.1, C.ids]
    cases outShare s <;> rfl
  nodup := by
    rw [hids]
    cases ho : outShare s with
    | none => simpa using C.nodup
    | some o =>
      rw [Option.isSome_some, if_pos rfl, List.nodup_append]
      refine ⟨C.nodup, List.nodup_singleton _, ?_⟩
      intro x hx y hy hxy
      rw [List.mem_singleton] at hy
      subst hxy hy
      rw [← C.ids, List.mem_map] at hx
      obtain ⟨⟨k', ap', o'⟩, h1, h2⟩ := hx
      cases h2
      obtain ⟨b, h3, h4⟩ := (C.outs _ _ _).1 h1
      rw [ha] at h3
      cases h3
      exact (hold a _ h4).2 _ rfl
  outs k' ap' o := by
    show (k', ap', o) ∈ mem0.outs ++ ((outShare s).map fun o => (k, ap, o)).toList ↔ _
    rw [List.mem_append, hmem0.2.1, C.outs]
    constructor
    · rintro (⟨b, h1, h2⟩ | h)
      · refine ⟨b, h1, ?_⟩
        rw [hmem, h2]
        rintro ⟨rfl, hl⟩
        rw [hl] at h2
        exact (hold b _ h2).2 _ rfl
      · rw [Option.mem_toList, Option.map_eq_some_iff] at h
        obtain ⟨o', h1, h2⟩ := h
        cases h2
        exact ⟨a, ha, (hnew a o).2 ⟨rfl, h1⟩⟩
    · rintro ⟨b, h1, h2⟩
      by_cases hh : k' = k ∧ b.1 = a.1
      · obtain ⟨rfl, hl⟩ := hh
        rw [hl, hnew] at h2
        obtain ⟨rfl, h3⟩ := h2
        right
        rw [decodeAggParam_inj h1 ha, h3]
        simp
      · rw [hmem k' b.1 hh] at h2
        exact .inl ⟨b, h1, h2⟩

/-- The accepted reports and their output shares in the two attacks are the same, up to the order. -/
theorem Core.batch {prev : ℕ → List Poplar1AggParam} {waiting ids : List (ℕ × Bytes)} {mem : Memory} {mem' : PMem}
    (C : Core isLeader n prev waiting ids mem mem') {ap : Bytes} {a : Poplar1AggParam} (ha : decodeAggParam ap = .ok a)
    (ks : List ℕ) :
    ((mem'.outs.filter fun o => o.2.1 = ap ∧ o.1 ∈ ks).map (·.1)).Perm
        ((List.range n).filter fun k => k ∈ ks ∧ (mem.out a k).isSome) ∧
      ((mem'.outs.filter fun o => o.2.1 = ap ∧ o.1 ∈ ks).map (·.2.2)).Perm
        (((List.range n).filter fun k => k ∈ ks ∧ (mem.out a k).isSome).filterMap (mem.out a)) := by
  have key : ∀ x ∈ mem'.outs.filter fun o => o.2.1 = ap ∧ o.1 ∈ ks, mem.out a x.1 = some x.2.2 := by
    rintro ⟨k, ap', o⟩ hx
    rw [List.mem_filter] at hx
    obtain ⟨h1, h2⟩ := hx
    obtain ⟨rfl, h2⟩ := of_decide_eq_true h2
    obtain ⟨b, h3, h4⟩ := (C.outs _ _ _).1 h1
    dsimp only at h3 ⊢
    rw [ha] at h3
    cases h3
    exact out_iff.2 h4
  have hp : ((mem'.outs.filter fun o => o.2.1 = ap ∧ o.1 ∈ ks).map (·.1)).Perm
        ((List.range n).filter fun k => k ∈ ks ∧ (mem.out a k).isSome) := by
    rw [List.perm_ext_iff_of_nodup]
    · intro k
      simp only [List.mem_map, List.mem_filter, List.mem_range, decide_eq_true_eq]
      constructor
      · rintro ⟨x, ⟨h1, h2, h3⟩, rfl⟩
        have h4 := key x (List.mem_filter.2 ⟨h1, by simp [h2, h3]⟩)
        have h5 := C.begun _ _ _ (out_iff.1 h4)
        exact ⟨h5.1, h3, by rw [h4]; rfl⟩
      · rintro ⟨h1, h2, h3⟩
        obtain ⟨o, ho⟩ := Option.isSome_iff_exists.1 h3
        exact ⟨(k, ap, o), ⟨(C.outs _ _ _).2 ⟨a, ha, out_iff.1 ho⟩, rfl, h2⟩, rfl⟩
    · have h1 : ((mem'.outs.filter fun o => o.2.1 = ap ∧ o.1 ∈ ks).map fun x => (x.1, x.2.1)).Nodup := by
        have := C.nodup
        rw [← C.ids] at this
        exact this.sublist (List.filter_sublist.map _)
      rw [show ((mem'.outs.filter fun o => o.2.1 = ap ∧ o.1 ∈ ks).map fun x => (x.1, x.2.1)) =
        ((mem'.outs.filter fun o => o.2.1 = ap ∧ o.1 ∈ ks).map (·.1)).map fun k => (k, ap) by
          rw [List.map_map]
          refine List.map_congr_left fun x hx => ?_
          rw [List.mem_filter] at hx
          show (x.1, x.2.1) = (x.1, ap)
          rw [(of_decide_eq_true hx.2).1]] at h1
      exact h1.of_map _
    · exact List.nodup_range.filter _
  refine ⟨hp, ?_⟩
  have : (mem'.outs.filter fun o => o.2.1 = ap ∧ o.1 ∈ ks).map (·.2.2) =
      ((mem'.outs.filter fun o => o.2.1 = ap ∧ o.1 ∈ ks).map (·.1)).filterMap (mem.out a) := by
    rw [List.filterMap_map]
    generalize mem'.outs.filter (fun o => decide (o.2.1 = ap ∧ o.1 ∈ ks)) = l at key
    induction l with
    | nil => rfl
    | cons x l ih =>
      rw [List.map_cons, List.filterMap_cons]
      rw [show (mem.out a ∘ fun x : ℕ × Bytes × FieldVec => x.1) x = some x.2.2 from key x List.mem_cons_self]
      dsimp only
      rw [ih fun y hy => key y (List.mem_cons_of_mem _ hy)]
  rw [this]
  exact hp.filterMap _

/-! ### The moves -/

theorem treePlay_game (prims : Prims) (fuel bits : ℕ) (ctx : Bytes) (n : ℕ)
    (start : ℕ → Poplar1AggParam → Res (Poplar1VerifyState × FieldVec)) (σ : List TreeReply → TreeMove) (q : ℕ) :
    treePlay prims fuel bits ctx n start σ q =
      Game.play (treeRespond prims fuel bits ctx n start) (fun _ _ => none) σ q := by
  induction q with
  | zero => rfl
  | succ q ih => unfold treePlay Game.play; rw [ih]

theorem verifyNext_out {ctx : Bytes} {st : Poplar1VerifyState} {m : Option FieldVec} {o : FieldVec}
    (h : verifyNext ctx st m = .ok (.out o)) : st.step = .reveal := by
  unfold verifyNext at h
  split at h
  · split at h
    · cases h
    · split at h
      · rw [Except.bind_eq_ok] at h; obtain ⟨A, -, h⟩ := h
        rw [Except.bind_eq_ok] at h; obtain ⟨B, -, h⟩ := h
        rw [Except.bind_eq_ok] at h; obtain ⟨id, -, h⟩ := h
        cases h
      · cases h
  · assumption

section
variable {prims : Prims} {fuel : ℕ} {vk ctx : Bytes} {reports : List WireReport}
  {start : ℕ → Poplar1AggParam → Res (Poplar1VerifyState × FieldVec)} {σ : List (PeerReply FieldVec) → PeerMove}

set_option quotPrecheck false
local notation "Sm" => simulator bits isLeader n σ
local notation "plan'" c => plan bits isLeader n c (σ (SimState.out c))
local notation "base" => treeRespond prims fuel bits ctx n start
local notation "peer" => peerRespond (Poplar1.vdaf (Poplar1.mk (poplarIdpf bits)) prims fuel) prims isLeader vk ctx reports

theorem base_noop (mem : Memory) : (base) mem (noop n) = .ok (.refused, mem) := by
  unfold treeRespond noop
  dsimp only
  rw [if_neg (fun h => absurd h.1 (Nat.lt_irrefl n))]
  rfl

theorem base_send {mem : Memory} {k l : ℕ} {a : Poplar1AggParam} {st : Poplar1VerifyState} (h : mem k l = some (a, .running st))
    (m : Option FieldVec) :
    (base) mem (.send k l m) = .ok (match verifyNext ctx st m with
      | .ok (.cont state share) => (.continued share, mem.set k l (a, .running state))
      | .ok (.out out) => (.accepted, mem.set k l (a, .done out))
      | .error _ => (.refused, mem.set k l (a, .rejected))) := by
  unfold treeRespond
  dsimp only
  rw [h]
  dsimp only
  rcases verifyNext ctx st m with e | ⟨s, sh⟩ | o <;> rfl

theorem step_of {c : SimState} {p : SimPlan} (hp : (plan' c).1 = p) {mem mem1 mem2 : Memory} {r1 r2 : TreeReply}
    (h1 : (base) mem (planFirst n p) = .ok (r1, mem1)) (h2 : (base) mem1 (planSecond bits isLeader n r1 p) = .ok (r2, mem2)) :
    (Sm).step (base) c mem = .ok (r1, r2, .refused, mem2) := by
  unfold Game.Sim.step
  show ((base) mem (planFirst n (plan' c).1) >>= _) = _
  rw [hp, h1]
  show ((base) mem1 (planSecond bits isLeader n r1 (plan' c).1) >>= _) = _
  rw [hp, h2]
  show ((base) mem2 (noop n) >>= _) = _
  rw [base_noop]
  rfl

/-- The simulator, the attack of `Spec/Poplar1Oracle.lean` and the attack in the ping-pong topology belong together. -/
def Rel (isLeader : Bool) (n : ℕ) (rs : List TreeReply) (c : SimState) (mem : Memory) (mem' : PMem) : Prop :=
  Core isLeader n c.previous c.waiting c.ids mem mem' ∧
    ∀ a js share, .total a js share ∈ rs → ∃ ap ks, .total ap ks share ∈ c.out ∧ decodeAggParam ap = .ok a ∧ ks.Perm js

/-- One move succeeds. -/
theorem conclude {rs : List TreeReply} {c : SimState} {mem mem1 mem2 : Memory} {mem' mem'' : PMem}
    (R : Rel isLeader n rs c mem mem') {p : SimPlan} {prev2 : ℕ → List Poplar1AggParam} {w2 wa ia : List (ℕ × Bytes)}
    (hp : (plan' c) = (p, prev2, w2)) {r1 r2 : TreeReply} {r' : PeerReply FieldVec}
    (h1 : (base) mem (planFirst n p) = .ok (r1, mem1)) (h2 : (base) mem1 (planSecond bits isLeader n r1 p) = .ok (r2, mem2))
    (h3 : planResult bits isLeader c.ids r1 r2 p = (r', wa, ia)) (h4 : (peer) mem' (σ c.out) = .ok (r', mem''))
    (h5 : Core isLeader n prev2 (wa ++ w2) (c.ids ++ ia) mem2 mem'')
    (h6 : ∀ a js share, r1 = .total a js share → ∃ ap ks, r' = .total ap ks share ∧ decodeAggParam ap = .ok a ∧ ks.Perm js)
    (h7 : ∀ a js share, r2 ≠ .total a js share) :
    ∃ r1 r2 r3 mem3 r' mem'', (Sm).step (base) c mem = .ok (r1, r2, r3, mem3) ∧ (peer) mem' (σ c.out) = .ok (r', mem'') ∧
      ((Sm).next c r1 r2 r3).out = c.out ++ [r'] ∧
      Rel isLeader n (rs ++ [r1] ++ [r2] ++ [r3]) ((Sm).next c r1 r2 r3) mem3 mem'' := by
  have hn : (Sm).next c r1 r2 .refused = ⟨c.out ++ [r'], prev2, wa ++ w2, c.ids ++ ia⟩ := by
    show SimState.mk _ _ _ _ = _
    rw [hp]
    dsimp only
    rw [h3]
  refine ⟨r1, r2, .refused, mem2, r', mem'', step_of (by rw [hp]) h1 h2, h4, by rw [hn], ?_⟩
  rw [hn]
  refine ⟨h5, fun a js share h => ?_⟩
  simp only [List.mem_append, List.mem_singleton] at h
  rcases h with ((h | h) | h) | h
  · obtain ⟨ap, ks, k1, k2⟩ := R.2 a js share h
    exact ⟨ap, ks, List.mem_append_left _ k1, k2⟩
  · obtain ⟨ap, ks, k1, k2⟩ := h6 a js share h.symm
    exact ⟨ap, ks, List.mem_append_right _ (by rw [k1]; exact List.mem_singleton_self _), k2⟩
  · exact absurd h.symm (h7 a js share)
  · cases h

/-- The simulator knows the reply. -/
theorem conclude_say {rs : List TreeReply} {c : SimState} {mem : Memory} {mem' mem'' : PMem}
    (R : Rel isLeader n rs c mem mem') {prev2 : ℕ → List Poplar1AggParam} {w2 : List (ℕ × Bytes)} {r' : PeerReply FieldVec}
    (hp : (plan' c) = (.say r', prev2, w2)) (h4 : (peer) mem' (σ c.out) = .ok (r', mem''))
    (h5 : Core isLeader n prev2 w2 c.ids mem mem'') :
    ∃ r1 r2 r3 mem3 r' mem'', (Sm).step (base) c mem = .ok (r1, r2, r3, mem3) ∧ (peer) mem' (σ c.out) = .ok (r', mem'') ∧
      ((Sm).next c r1 r2 r3).out = c.out ++ [r'] ∧
      Rel isLeader n (rs ++ [r1] ++ [r2] ++ [r3]) ((Sm).next c r1 r2 r3) mem3 mem'' :=
  conclude R hp (base_noop mem) (base_noop mem) (wa := []) (ia := []) rfl h4 (by rw [List.append_nil]; exact h5)
    (by intro a js share h; cases h) (by intro a js share h; cases h)

/-- What the honest Aggregator does at the beginning -/
def initOf (prims : Prims) (fuel bits : ℕ) (isLeader : Bool) (vk ctx ap : Bytes) (r : WireReport) (inbound : Bytes) :
    Res PState :=
  if isLeader then leaderInit (Poplar1.vdaf (Poplar1.mk (poplarIdpf bits)) prims fuel) vk ctx ap r.nonce r.publicShare r.leaderShare
  else helperInit (Poplar1.vdaf (Poplar1.mk (poplarIdpf bits)) prims fuel) vk ctx ap r.nonce r.publicShare r.helperShare inbound

/-- What is known of the reports -/
structure Honest (prims : Prims) (fuel bits : ℕ) (isLeader : Bool) (n : ℕ) (vk ctx : Bytes) (reports : List WireReport)
    (start : ℕ → Poplar1AggParam → Res (Poplar1VerifyState × FieldVec)) : Prop where
  len : reports.length = n
  good : ∀ k r ap a inbound, reports[k]? = some r → decodeAggParam ap = .ok a → Askable bits a →
    (start k a = .error .fuel ∧ initOf prims fuel bits isLeader vk ctx ap r inbound = .error .fuel) ∨
    ∃ st own, start k a = .ok (st, own) ∧ st.level = a.1 ∧ st.step = .evaluate ∧
      initOf prims fuel bits isLeader vk ctx ap r inbound = .ok (initState ⟨poplarIdpf bits⟩ isLeader ctx a.1 st own inbound)
  bad : ∀ (k : ℕ) r ap a inbound, reports[k]? = some r → decodeAggParam ap = .ok a → bits ≤ a.1 →
    initOf prims fuel bits isLeader vk ctx ap r inbound = .ok .rejected

theorem set_apply (mem : Memory) (k l : ℕ) (x : Poplar1AggParam × Progress) (k' l' : ℕ) :
    mem.set k l x k' l' = if k' = k ∧ l' = l then some x else mem k' l' := rfl

theorem set_set (mem : Memory) (k l : ℕ) (x y : Poplar1AggParam × Progress) : (mem.set k l x).set k l y = mem.set k l y := by
  funext k' l'
  rw [set_apply, set_apply, set_apply]
  split <;> rfl

theorem addParam_sorted {prev : ℕ → List Poplar1AggParam} (h : ∀ k, (prev k).Pairwise fun a b => a.1 < b.1) {k : ℕ}
    {a : Poplar1AggParam} (hv : isValid a (prev k) = .ok true) (k' : ℕ) :
    (addParam prev k a k').Pairwise (fun a b => a.1 < b.1) ∧ ∀ b ∈ prev k, b.1 < a.1 := by
  have key : ∀ b ∈ prev k, b.1 < a.1 := by
    obtain ⟨level, prefixes⟩ := a
    have h1 := (isValid_true_iff.1 hv).2
    have h2 := h k
    intro b hb
    have hne : prev k ≠ [] := List.ne_nil_of_mem hb
    obtain ⟨init, last, hl⟩ := (List.eq_nil_or_concat' (prev k)).resolve_left hne
    rw [hl] at h1 h2 hb
    have h3 := (h1 last (by simp)).1
    rcases List.mem_append.1 hb with hb | hb
    · have := (List.pairwise_append.1 h2).2.2 b hb last (by simp)
      dsimp only at this ⊢
      omega
    · rw [List.mem_singleton] at hb
      subst hb
      exact h3
  refine ⟨?_, key⟩
  unfold addParam
  split
  · rw [List.pairwise_append]
    refine ⟨h k, List.pairwise_singleton _ _, fun b hb x hx => ?_⟩
    rw [List.mem_singleton] at hx
    subst hx
    exact key b hb
  · exact h k'

/-- The beginning of the verification -/
theorem Core.opened {prev : ℕ → List Poplar1AggParam} {wait acc : List (ℕ × Bytes)} {mem mem2 : Memory}
    {mem' : PMem} (C : Core isLeader n prev wait acc mem mem') {k : ℕ} {ap : Bytes} {a : Poplar1AggParam}
    (ha : decodeAggParam ap = .ok a) (hkn : k < n) (hv : isValid a (prev k) = .ok true) {s : PState}
    (hs : outShare s = none) {wa : List (ℕ × Bytes)}
    (hmem : ∀ k' l, ¬ (k' = k ∧ l = a.1) → mem2 k' l = mem k' l)
    (hnewa : ∀ x, mem2 k a.1 = some x → x.1 = a) (hnew : ∀ a' o, mem2 k a.1 ≠ some (a', .done o))
    (hw : (wa = [] ∧ ∀ st r m, s ≠ .continued st r m) ∨ wa = [(k, ap)] ∧ ∃ st m, mem2 k a.1 = some (a, .running st) ∧
      s = .continued st (if isLeader then 0 else 1) m ∧ st.level = a.1 ∧ st.step = if isLeader then .evaluate else .reveal) :
    Core isLeader n (addParam prev k a) (wa ++ wait) acc mem2 ((mem'.begin k a).put k ap s) := by
  have hfresh : mem k a.1 = none := by
    cases h : mem k a.1 with
    | none => rfl
    | some x =>
      obtain ⟨-, hb, h1⟩ := C.begun _ _ _ h
      have := (addParam_sorted C.sorted hv k).2 _ hb
      omega
  have hnw : (k, ap) ∉ wait := by
    intro h
    obtain ⟨b, st, m, h1, h2, -⟩ := C.waiting k ap h
    rw [ha] at h1
    cases h1
    rw [hfresh] at h2
    cases h2
  refine C.update ha hkn ⟨rfl, rfl, ?_⟩ (fun k' => (addParam_sorted C.sorted hv k').1) ?_ ?_ ?_ hmem hnewa ?_ ?_ ?_ ?_ ?_
  · show (fun k' => if k' = k then mem'.previous k ++ [a] else mem'.previous k') = _
    rw [C.previous]
    rfl
  · intro k' b hb
    unfold addParam
    split
    · rename_i h
      subst h
      exact List.mem_append_left _ hb
    · exact hb
  · unfold addParam
    rw [if_pos rfl]
    exact List.mem_append_right _ (List.mem_singleton_self _)
  · intro a' p h
    rw [hfresh] at h
    cases h
  · intro a' o
    rw [hs]
    constructor
    · intro h; exact absurd h (hnew a' o)
    · rintro ⟨-, h⟩; cases h
  · intro i hi
    rcases hw with ⟨rfl, -⟩ | ⟨rfl, -⟩
    · rfl
    · simp [hi]
  · intro h
    rcases hw with ⟨rfl, -⟩ | ⟨rfl, h1⟩
    · exact absurd h hnw
    · exact h1
  · intro h
    rcases hw with ⟨rfl, h1⟩ | ⟨rfl, h1⟩
    · exact h1
    · simp at h
  · rw [hs]
    simp

/-- A message -/
theorem Core.deliver {prev : ℕ → List Poplar1AggParam} {wait acc : List (ℕ × Bytes)} {mem mem2 : Memory}
    {mem' : PMem} (C : Core isLeader n prev wait acc mem mem') {k : ℕ} {ap : Bytes} {a : Poplar1AggParam}
    (ha : decodeAggParam ap = .ok a) {st : Poplar1VerifyState} (hold : mem k a.1 = some (a, .running st)) {s : PState}
    (hmem : ∀ k' l, ¬ (k' = k ∧ l = a.1) → mem2 k' l = mem k' l)
    (hnewa : ∀ x, mem2 k a.1 = some x → x.1 = a)
    (hnew : ∀ a' o, mem2 k a.1 = some (a', .done o) ↔ a' = a ∧ outShare s = some o)
    (hs : ∀ st r m, s ≠ .continued st r m) {ia : List (ℕ × Bytes)}
    (hia : ia = if (outShare s).isSome then [(k, ap)] else []) :
    Core isLeader n prev (wait.filter (· ≠ (k, ap))) (acc ++ ia) mem2 (mem'.put k ap s) := by
  obtain ⟨hkn, hak, -⟩ := C.begun _ _ _ hold
  refine C.update ha hkn ⟨rfl, rfl, C.previous⟩ C.sorted (fun k' => List.Subset.refl _) hak ?_ hmem hnewa hnew ?_ ?_ ?_
    (by rw [hia])
  · intro a' p h
    rw [hold] at h
    cases h
    exact ⟨rfl, fun o h => by cases h⟩
  · intro i hi
    simp [hi]
  · intro h
    simp at h
  · intro _
    exact hs

theorem askable_of {ap : Bytes} {a : Poplar1AggParam} (ha : decodeAggParam ap = .ok a) {l : List Poplar1AggParam}
    (hv : isValid a l = .ok true) (hb : a.1 < bits) : Askable bits a := by
  obtain ⟨h1, h2⟩ := decodeAggParam_iff.1 ha
  obtain ⟨level, prefixes⟩ := a
  refine ⟨hb, (encodeAggParam_iff.1 h2).1, ?_, h1⟩
  refine List.Pairwise.imp (fun {p q} h e => ?_) (isValid_true_iff.1 hv).1
  rw [e] at h
  exact lexLt_irrefl _ h

theorem getElem?_of_lt {k : ℕ} (H : Honest prims fuel bits isLeader n vk ctx reports start) (hk : k < n) :
    ∃ r, reports[k]? = some r := by
  rw [← H.len] at hk
  exact ⟨_, List.getElem?_eq_getElem hk⟩

theorem peer_start {k : ℕ} {ap inbound : Bytes} {r : WireReport} {a : Poplar1AggParam} {mem' : PMem}
    (hr : reports[k]? = some r) (ha : decodeAggParam ap = .ok a) (hv : isValid a (mem'.previous k) = .ok true) :
    (peer) mem' (.start k ap inbound) = (do
      let s ← initOf prims fuel bits isLeader vk ctx ap r inbound
      return (seenOf s, (mem'.begin k a).put k ap s)) := by
  unfold peerRespond
  dsimp only
  rw [hr, show (Poplar1.vdaf (Poplar1.mk (poplarIdpf bits)) prims fuel).decodeAggParam ap = .ok a from ha]
  dsimp only
  rw [show (Poplar1.vdaf (Poplar1.mk (poplarIdpf bits)) prims fuel).isValid a (mem'.previous k) = .ok true from hv]
  cases isLeader <;> rfl

theorem peer_start_refused {k : ℕ} {ap inbound : Bytes} {mem' : PMem}
    (H : Honest prims fuel bits isLeader n vk ctx reports start)
    (h : ∀ a, decodeAggParam ap = .ok a → ¬ (k < n ∧ isValid a (mem'.previous k) = .ok true)) :
    (peer) mem' (.start k ap inbound) = .ok (.refused, mem') := by
  unfold peerRespond
  dsimp only
  rw [show (Poplar1.vdaf (Poplar1.mk (poplarIdpf bits)) prims fuel).decodeAggParam ap = decodeAggParam ap from rfl]
  cases hr : reports[k]? with
  | none => rfl
  | some r =>
    cases ha : decodeAggParam ap with
    | error e => rfl
    | ok a =>
      dsimp only
      rw [show (Poplar1.vdaf (Poplar1.mk (poplarIdpf bits)) prims fuel).isValid a (mem'.previous k) =
        isValid a (mem'.previous k) from rfl]
      have hk : k < n := by rw [← H.len]; exact (List.getElem?_eq_some_iff.1 hr).1
      rcases hv : isValid a (mem'.previous k) with e | ⟨_ | _⟩
      · rfl
      · rfl
      · exact absurd ⟨hk, hv⟩ (h a ha)

/-- What the simulator and the honest Aggregator do at the beginning of the verification -/
theorem start_step (H : Honest prims fuel bits isLeader n vk ctx reports start) {rs : List TreeReply} {c : SimState}
    {mem : Memory} {mem' : PMem} (R : Rel isLeader n rs c mem mem') {k : ℕ} {ap inbound : Bytes} {a : Poplar1AggParam}
    (hm : σ c.out = .start k ap inbound) (ha : decodeAggParam ap = .ok a) (hk : k < n)
    (hv : isValid a (c.previous k) = .ok true) (hb : a.1 < bits) :
      ((∃ e, (Sm).step (base) c mem = .error e) ∧ ∃ e, (peer) mem' (σ c.out) = .error e) ∨
      ∃ r1 r2 r3 mem3 r' mem'', (Sm).step (base) c mem = .ok (r1, r2, r3, mem3) ∧ (peer) mem' (σ c.out) = .ok (r', mem'') ∧
        ((Sm).next c r1 r2 r3).out = c.out ++ [r'] ∧
        Rel isLeader n (rs ++ [r1] ++ [r2] ++ [r3]) ((Sm).next c r1 r2 r3) mem3 mem'' := by
  have hp : (plan' c) = (.start k ap a inbound, addParam c.previous k a, c.waiting) := by
    rw [hm]
    unfold plan
    dsimp only
    rw [ha]
    dsimp only
    rw [if_pos ⟨hk, hv⟩, if_pos hb]
  have hq := askable_of (bits := bits) ha hv hb
  obtain ⟨w, hw⟩ := getElem?_of_lt H hk
  have hv' : isValid a (mem'.previous k) = .ok true := by rw [R.1.previous]; exact hv
  have hpeer := peer_start (prims := prims) (fuel := fuel) (bits := bits) (isLeader := isLeader) (vk := vk) (ctx := ctx)
    (inbound := inbound) hw ha hv'
  have hfresh : mem k a.1 = none := by
    cases h : mem k a.1 with
    | none => rfl
    | some x =>
      obtain ⟨-, hb, h1⟩ := R.1.begun _ _ _ h
      have := (addParam_sorted R.1.sorted hv k).2 _ hb
      omega
  have hbase : (base) mem (.start k a) = (do
      let (state, share) ← start k a
      return (.started k a share, mem.set k a.1 (a, .running state))) := by
    unfold treeRespond
    dsimp only
    rw [if_pos ⟨hk, hq, hfresh⟩]
  rcases H.good k w ap a inbound hw ha hq with ⟨h1, h2⟩ | ⟨st, own, h1, hl, hs, h2⟩
  · refine .inl ⟨⟨.fuel, ?_⟩, .fuel, ?_⟩
    · unfold Game.Sim.step
      show ((base) mem (planFirst n (plan' c).1) >>= _) = _
      rw [hp]
      show ((base) mem (.start k a) >>= _) = _
      rw [hbase, h1]
      rfl
    · rw [hm, hpeer, h2]
      rfl
  right
  have hfirst : (base) mem (planFirst n (.start k ap a inbound)) = .ok (.started k a own, mem.set k a.1 (a, .running st)) := by
    show (base) mem (.start k a) = _
    rw [hbase, h1]
    rfl
  have hpeer' : (peer) mem' (σ c.out) = .ok (seenOf (initState ⟨poplarIdpf bits⟩ isLeader ctx a.1 st own inbound),
      (mem'.begin k a).put k ap (initState ⟨poplarIdpf bits⟩ isLeader ctx a.1 st own inbound)) := by
    rw [hm, hpeer, h2]
    rfl
  have hset : ∀ (x : Poplar1AggParam × Progress), ∀ k' l, ¬ (k' = k ∧ l = a.1) → mem.set k a.1 x k' l = mem k' l :=
    fun x k' l h => by rw [set_apply, if_neg h]
  have hself : ∀ (x : Poplar1AggParam × Progress), mem.set k a.1 x k a.1 = some x :=
    fun x => by rw [set_apply, if_pos ⟨rfl, rfl⟩]
  cases isLeader with
  | true =>
    have hsecond : (base) (mem.set k a.1 (a, .running st)) (planSecond bits true n (.started k a own) (.start k ap a inbound)) =
        .ok (.refused, mem.set k a.1 (a, .running st)) := base_noop _
    cases ho : firstOut own with
    | error e =>
      have hi : initState ⟨poplarIdpf bits⟩ true ctx a.1 st own inbound = .rejected := by
        unfold initState
        rw [if_pos rfl, ho]
        rfl
      rw [hi] at hpeer'
      refine conclude R hp hfirst hsecond (wa := []) (ia := []) ?_ hpeer' ?_ (by intro a js share h; cases h)
        (by intro a js share h; cases h)
      · unfold planResult
        dsimp only
        rw [if_pos rfl, ho]
        rfl
      · rw [List.append_nil]
        refine R.1.opened ha hk hv rfl (hset _) ?_ ?_ (.inl ⟨rfl, fun _ _ _ h => by cases h⟩)
        · intro x hx; rw [hself] at hx; cases hx; rfl
        · intro a' o hx; rw [hself] at hx; cases hx
    | ok ob =>
      have hi : initState ⟨poplarIdpf bits⟩ true ctx a.1 st own inbound = .continued st 0 ob := by
        unfold initState
        rw [if_pos rfl, ho]
        rfl
      rw [hi] at hpeer'
      refine conclude R hp hfirst hsecond (wa := [(k, ap)]) (ia := []) ?_ hpeer' ?_ (by intro a js share h; cases h)
        (by intro a js share h; cases h)
      · unfold planResult
        dsimp only
        rw [if_pos rfl, ho]
        rfl
      · rw [List.append_nil]
        refine R.1.opened ha hk hv rfl (hset _) ?_ ?_ (.inr ⟨rfl, st, ob, hself _, rfl, hl, hs⟩)
        · intro x hx; rw [hself] at hx; cases hx; rfl
        · intro a' o hx; rw [hself] at hx; cases hx
  | false =>
    cases hf : helperFirst ⟨poplarIdpf bits⟩ a.1 own inbound with
    | error e =>
      have hsecond : (base) (mem.set k a.1 (a, .running st)) (planSecond bits false n (.started k a own) (.start k ap a inbound)) =
          .ok (.refused, mem.set k a.1 (a, .running st)) := by
        unfold planSecond
        dsimp only
        rw [if_neg (by simp), hf]
        exact base_noop _
      have hi : initState ⟨poplarIdpf bits⟩ false ctx a.1 st own inbound = .rejected := by
        unfold initState
        rw [if_neg (by simp), hf]
        rfl
      rw [hi] at hpeer'
      refine conclude R hp hfirst hsecond (wa := []) (ia := []) ?_ hpeer' ?_ (by intro a js share h; cases h)
        (by intro a js share h; cases h)
      · unfold planResult
        dsimp only
        rw [if_neg (by simp), hf]
        rfl
      · rw [List.append_nil]
        refine R.1.opened ha hk hv rfl (hset _) ?_ ?_ (.inl ⟨rfl, fun _ _ _ h => by cases h⟩)
        · intro x hx; rw [hself] at hx; cases hx; rfl
        · intro a' o hx; rw [hself] at hx; cases hx
    | ok x =>
      obtain ⟨m, b⟩ := x
      have hsend := base_send (prims := prims) (fuel := fuel) (bits := bits) (n := n) (ctx := ctx) (start := start)
        (hself (a, .running st)) m
      have hsecond : (base) (mem.set k a.1 (a, .running st)) (planSecond bits false n (.started k a own) (.start k ap a inbound)) =
          (base) (mem.set k a.1 (a, .running st)) (.send k a.1 m) := by
        unfold planSecond
        dsimp only
        rw [if_neg (by simp), hf]
      rw [hsend] at hsecond
      simp only [set_set] at hsecond
      rcases hn : verifyNext ctx st m with e | ⟨st', sh'⟩ | o
      · rw [hn] at hsecond
        have hi : initState ⟨poplarIdpf bits⟩ false ctx a.1 st own inbound = .rejected := by
          unfold initState
          rw [if_neg (by simp), hf]
          simp only [Except.ok_bind', hn]
          rfl
        rw [hi] at hpeer'
        refine conclude R hp hfirst hsecond (wa := []) (ia := []) ?_ hpeer' ?_ (by intro a js share h; cases h)
          (by intro a js share h; cases h)
        · unfold planResult
          dsimp only
          rw [if_neg (by simp), hf]
          rfl
        · rw [List.append_nil]
          refine R.1.opened ha hk hv rfl (hset _) ?_ ?_ (.inl ⟨rfl, fun _ _ _ h => by cases h⟩)
          · intro x hx; rw [hself] at hx; cases hx; rfl
          · intro a' o hx; rw [hself] at hx; cases hx
      · rw [hn] at hsecond
        obtain ⟨-, k1, k2⟩ := verifyNext_level hn
        cases ho : helperOut b sh' with
        | error e =>
          have hi : initState ⟨poplarIdpf bits⟩ false ctx a.1 st own inbound = .rejected := by
            unfold initState
            rw [if_neg (by simp), hf]
            simp only [Except.ok_bind', hn, unpack, ho]
            rfl
          rw [hi] at hpeer'
          refine conclude R hp hfirst hsecond (wa := []) (ia := []) ?_ hpeer' ?_ (by intro a js share h; cases h)
            (by intro a js share h; cases h)
          · unfold planResult
            dsimp only
            rw [if_neg (by simp), hf]
            dsimp only
            rw [ho]
            rfl
          · rw [List.append_nil]
            refine R.1.opened ha hk hv rfl (hset _) ?_ ?_ (.inl ⟨rfl, fun _ _ _ h => by cases h⟩)
            · intro x hx; rw [hself] at hx; cases hx; rfl
            · intro a' o hx; rw [hself] at hx; cases hx
        | ok ob =>
          have hi : initState ⟨poplarIdpf bits⟩ false ctx a.1 st own inbound = .continued st' 1 ob := by
            unfold initState
            rw [if_neg (by simp), hf]
            simp only [Except.ok_bind', hn, unpack, ho]
            rfl
          rw [hi] at hpeer'
          refine conclude R hp hfirst hsecond (wa := [(k, ap)]) (ia := []) ?_ hpeer' ?_ (by intro a js share h; cases h)
            (by intro a js share h; cases h)
          · unfold planResult
            dsimp only
            rw [if_neg (by simp), hf]
            dsimp only
            rw [ho]
            rfl
          · rw [List.append_nil]
            refine R.1.opened ha hk hv rfl (hset _) ?_ ?_ (.inr ⟨rfl, st', ob, hself _, rfl, k2.trans hl, k1⟩)
            · intro x hx; rw [hself] at hx; cases hx; rfl
            · intro a' o hx; rw [hself] at hx; cases hx
      · have := verifyNext_out hn
        rw [hs] at this
        cases this

/-- What the simulator and the honest Aggregator do with a message -/
theorem deliver_step {rs : List TreeReply} {c : SimState}
    {mem : Memory} {mem' : PMem} (R : Rel isLeader n rs c mem mem') {k : ℕ} {ap inbound : Bytes}
    (hm : σ c.out = .deliver k ap inbound) (hw : (k, ap) ∈ c.waiting) :
      ∃ r1 r2 r3 mem3 r' mem'', (Sm).step (base) c mem = .ok (r1, r2, r3, mem3) ∧ (peer) mem' (σ c.out) = .ok (r', mem'') ∧
        ((Sm).next c r1 r2 r3).out = c.out ++ [r'] ∧
        Rel isLeader n (rs ++ [r1] ++ [r2] ++ [r3]) ((Sm).next c r1 r2 r3) mem3 mem'' := by
  obtain ⟨a, st, m0, ha, hold, hstate, hl, hs⟩ := R.1.waiting k ap hw
  have hset : ∀ (x : Poplar1AggParam × Progress), ∀ k' l, ¬ (k' = k ∧ l = a.1) → mem.set k a.1 x k' l = mem k' l :=
    fun x k' l h => by rw [set_apply, if_neg h]
  have hself : ∀ (x : Poplar1AggParam × Progress), mem.set k a.1 x k a.1 = some x :=
    fun x => by rw [set_apply, if_pos ⟨rfl, rfl⟩]
  have hrej : outShare (.rejected : PState) = none := rfl
  have hno : ∀ x : Poplar1AggParam × Progress, x.1 = a → (∀ o, x.2 ≠ .done o) →
      Core isLeader n c.previous (c.waiting.filter (· ≠ (k, ap))) c.ids (mem.set k a.1 x) (mem'.put k ap .rejected) := by
    intro x hx hd
    have := R.1.deliver (mem2 := mem.set k a.1 x) (s := .rejected) (ia := []) ha hold (hset x) ?_ ?_ (fun _ _ _ h => by cases h)
      rfl
    · rwa [List.append_nil] at this
    · intro y hy; rw [hself] at hy; cases hy; exact hx
    · intro a' o
      rw [hself, hrej]
      constructor
      · intro h; cases h; exact absurd rfl (hd o)
      · rintro ⟨-, h⟩; cases h
  have hno' : Core isLeader n c.previous (c.waiting.filter (· ≠ (k, ap))) c.ids mem (mem'.put k ap .rejected) := by
    have := hno (a, .running st) rfl (fun o h => by cases h)
    rwa [show mem.set k a.1 (a, .running st) = mem by
      funext k' l
      rw [set_apply]
      split
      · rename_i h; rw [h.1, h.2, hold]
      · rfl] at this
  have hyes : ∀ (s : PState) (o : FieldVec), outShare s = some o →
      Core isLeader n c.previous (c.waiting.filter (· ≠ (k, ap))) (c.ids ++ [(k, ap)]) (mem.set k a.1 (a, .done o))
        (mem'.put k ap s) := by
    intro s o ho
    refine R.1.deliver ha hold (hset _) ?_ ?_ ?_ (by rw [ho]; rfl)
    · intro y hy; rw [hself] at hy; cases hy; rfl
    · intro a' o'
      rw [hself, ho]
      constructor
      · intro h; cases h; exact ⟨rfl, rfl⟩
      · rintro ⟨rfl, h⟩; cases h; rfl
    · intro st r m h
      rw [h] at ho
      cases ho
  have hpeer : ∀ s, (if isLeader then leaderContinued (Poplar1.vdaf (Poplar1.mk (poplarIdpf bits)) prims fuel) ctx ap st 0 inbound
      else helperContinued (Poplar1.vdaf (Poplar1.mk (poplarIdpf bits)) prims fuel) ctx ap st 1 inbound) = .ok s →
      (peer) mem' (σ c.out) = .ok (seenOf s, mem'.put k ap s) := by
    intro s h
    rw [hm]
    unfold peerRespond
    dsimp only
    rw [hstate]
    dsimp only
    cases isLeader with
    | true => rw [if_pos rfl] at h ⊢; rw [if_pos rfl, h]; rfl
    | false => rw [if_neg (by simp)] at h ⊢; rw [if_neg (by simp), h]; rfl
  cases isLeader with
  | true =>
    have hpeer1 := hpeer _ (by rw [if_pos rfl]; exact leaderContinued_ok ha hl inbound)
    cases hf : leaderFirst ⟨poplarIdpf bits⟩ a.1 inbound with
    | error e =>
      rw [show leaderState ⟨poplarIdpf bits⟩ ctx a.1 st inbound = .rejected by unfold leaderState; rw [hf]; rfl] at hpeer1
      refine conclude_say R ?_ hpeer1 hno'
      rw [hm]
      unfold plan
      dsimp only
      rw [if_pos hw, ha]
      dsimp only
      rw [if_pos rfl, hf]
      rfl
    | ok x =>
      obtain ⟨m, e⟩ := x
      have hp : plan bits true n c (σ c.out) =
          (.answer k ap a.1 m (some e), c.previous, c.waiting.filter (· ≠ (k, ap))) := by
        rw [hm]
        unfold plan
        dsimp only
        rw [if_pos hw, ha]
        dsimp only
        rw [if_pos rfl, hf]
      have hsend := base_send (prims := prims) (fuel := fuel) (bits := bits) (n := n) (ctx := ctx) (start := start) hold m
      rcases hn : verifyNext ctx st m with e1 | ⟨st', sh'⟩ | o
      · rw [hn] at hsend
        rw [show leaderState ⟨poplarIdpf bits⟩ ctx a.1 st inbound = .rejected by
          unfold leaderState; rw [hf]; simp only [Except.ok_bind', hn]; rfl] at hpeer1
        refine conclude R hp hsend (base_noop _) (wa := []) (ia := []) rfl hpeer1 ?_ (by intro a js share h; cases h)
          (by intro a js share h; cases h)
        rw [List.append_nil]
        exact hno _ rfl (fun o h => by cases h)
      · rw [hn] at hsend
        obtain ⟨-, k1, k2⟩ := verifyNext_level hn
        cases hg : leaderSecond ⟨poplarIdpf bits⟩ a.1 sh' e with
        | error e2 =>
          have hsecond : (base) (mem.set k a.1 (a, .running st'))
              (planSecond bits true n (.continued sh') (.answer k ap a.1 m (some e))) =
              .ok (.refused, mem.set k a.1 (a, .running st')) := by
            unfold planSecond
            dsimp only
            rw [hg]
            exact base_noop _
          rw [show leaderState ⟨poplarIdpf bits⟩ ctx a.1 st inbound = .rejected by
            unfold leaderState; rw [hf]; simp only [Except.ok_bind', hn, unpack, hg]; rfl] at hpeer1
          refine conclude R hp hsend hsecond (wa := []) (ia := []) ?_ hpeer1 ?_ (by intro a js share h; cases h)
            (by intro a js share h; cases h)
          · unfold planResult
            dsimp only
            rw [hg]
            rfl
          · rw [List.append_nil]
            exact hno _ rfl (fun o h => by cases h)
        | ok y =>
          obtain ⟨m2, ob⟩ := y
          have hsend2 := base_send (prims := prims) (fuel := fuel) (bits := bits) (n := n) (ctx := ctx) (start := start)
            (hself (a, .running st')) m2
          have hsecond : (base) (mem.set k a.1 (a, .running st'))
              (planSecond bits true n (.continued sh') (.answer k ap a.1 m (some e))) =
              (base) (mem.set k a.1 (a, .running st')) (.send k a.1 m2) := by
            unfold planSecond
            dsimp only
            rw [hg]
          rw [hsend2] at hsecond
          simp only [set_set] at hsecond
          rcases hn2 : verifyNext ctx st' m2 with e3 | ⟨st3, sh3⟩ | o
          · rw [hn2] at hsecond
            rw [show leaderState ⟨poplarIdpf bits⟩ ctx a.1 st inbound = .rejected by
              unfold leaderState; rw [hf]; simp only [Except.ok_bind', hn, unpack, hg, hn2]; rfl] at hpeer1
            refine conclude R hp hsend hsecond (wa := []) (ia := []) ?_ hpeer1 ?_ (by intro a js share h; cases h)
              (by intro a js share h; cases h)
            · unfold planResult
              dsimp only
              rw [hg]
              rfl
            · rw [List.append_nil]
              exact hno _ rfl (fun o h => by cases h)
          · have := (verifyNext_level hn2).1
            rw [k1] at this
            cases this
          · rw [hn2] at hsecond
            rw [show leaderState ⟨poplarIdpf bits⟩ ctx a.1 st inbound = .finishedWithOutbound (.out o) ob by
              unfold leaderState; rw [hf]; simp only [Except.ok_bind', hn, unpack, hg, hn2]; rfl] at hpeer1
            refine conclude R hp hsend hsecond (wa := []) (ia := [(k, ap)]) ?_ hpeer1 ?_ (by intro a js share h; cases h)
              (by intro a js share h; cases h)
            · unfold planResult
              dsimp only
              rw [hg]
              rfl
            · exact hyes _ o rfl
      · have := verifyNext_out hn
        rw [hs] at this
        cases this
  | false =>
    have hpeer1 := hpeer _ (by rw [if_neg (by simp)]; exact helperContinued_ok hl inbound)
    cases hf : helperLast ⟨poplarIdpf bits⟩ a.1 inbound with
    | error e =>
      rw [show helperState ⟨poplarIdpf bits⟩ ctx a.1 st inbound = .rejected by unfold helperState; rw [hf]; rfl] at hpeer1
      refine conclude_say R ?_ hpeer1 hno'
      rw [hm]
      unfold plan
      dsimp only
      rw [if_pos hw, ha]
      dsimp only
      rw [if_neg (by simp), hf]
      rfl
    | ok m =>
      have hp : plan bits false n c (σ c.out) =
          (.answer k ap a.1 m none, c.previous, c.waiting.filter (· ≠ (k, ap))) := by
        rw [hm]
        unfold plan
        dsimp only
        rw [if_pos hw, ha]
        dsimp only
        rw [if_neg (by simp), hf]
      have hsend := base_send (prims := prims) (fuel := fuel) (bits := bits) (n := n) (ctx := ctx) (start := start) hold m
      rcases hn : verifyNext ctx st m with e1 | ⟨st', sh'⟩ | o
      · rw [hn] at hsend
        rw [show helperState ⟨poplarIdpf bits⟩ ctx a.1 st inbound = .rejected by
          unfold helperState; rw [hf]; simp only [Except.ok_bind', hn]; rfl] at hpeer1
        refine conclude R hp hsend (base_noop _) (wa := []) (ia := []) rfl hpeer1 ?_ (by intro a js share h; cases h)
          (by intro a js share h; cases h)
        rw [List.append_nil]
        exact hno _ rfl (fun o h => by cases h)
      · have := (verifyNext_level hn).1
        rw [hs] at this
        cases this
      · rw [hn] at hsend
        rw [show helperState ⟨poplarIdpf bits⟩ ctx a.1 st inbound = .finished (.out o) by
          unfold helperState; rw [hf]; simp only [Except.ok_bind', hn]; rfl] at hpeer1
        exact conclude R hp hsend (base_noop _) (wa := []) (ia := [(k, ap)]) rfl hpeer1 (hyes _ o rfl)
          (by intro a js share h; cases h) (by intro a js share h; cases h)

theorem simulator_step (H : Honest prims fuel bits isLeader n vk ctx reports start) (rs : List TreeReply) (c : SimState)
    (mem : Memory) (mem' : PMem) (R : Rel isLeader n rs c mem mem') :
      ((∃ e, (Sm).step (base) c mem = .error e) ∧ ∃ e, (peer) mem' (σ c.out) = .error e) ∨
      ∃ r1 r2 r3 mem3 r' mem'', (Sm).step (base) c mem = .ok (r1, r2, r3, mem3) ∧ (peer) mem' (σ c.out) = .ok (r', mem'') ∧
        ((Sm).next c r1 r2 r3).out = c.out ++ [r'] ∧
        Rel isLeader n (rs ++ [r1] ++ [r2] ++ [r3]) ((Sm).next c r1 r2 r3) mem3 mem'' := by
  have same : Core isLeader n c.previous ([] ++ c.waiting) (c.ids ++ []) mem mem' := by rw [List.append_nil]; exact R.1
  cases hm : σ c.out with
  | turboShake m =>
    rw [← hm]
    refine .inr (conclude R (p := .ask (.turboShake m)) (prev2 := c.previous) (w2 := c.waiting) ?_ rfl (base_noop mem)
      (wa := []) (ia := []) (r' := .output (prims.turboShake m 1)) rfl ?_ same (by intro a js share h; cases h)
      (by intro a js share h; cases h))
    · rw [hm]; rfl
    · rw [hm]; rfl
  | cipher key block =>
    rw [← hm]
    refine .inr (conclude R (p := .ask (.cipher key block)) (prev2 := c.previous) (w2 := c.waiting) ?_ rfl (base_noop mem)
      (wa := []) (ia := []) (r' := .block (prims.aes key block)) rfl ?_ same (by intro a js share h; cases h)
      (by intro a js share h; cases h))
    · rw [hm]; rfl
    · rw [hm]; rfl
  | start k ap inbound =>
    rw [← hm]
    cases ha : decodeAggParam ap with
    | error e =>
      refine .inr (conclude_say R (r' := .refused) (prev2 := c.previous) (w2 := c.waiting) ?_ ?_ R.1)
      · rw [hm]; unfold plan; dsimp only; rw [ha]
      · rw [hm]; exact peer_start_refused H fun a h => by rw [ha] at h; cases h
    | ok a =>
      by_cases hv : k < n ∧ isValid a (c.previous k) = .ok true
      · by_cases hb : a.1 < bits
        · exact start_step H R hm ha hv.1 hv.2 hb
        · obtain ⟨w, hw⟩ := getElem?_of_lt H hv.1
          refine .inr (conclude_say R (r' := .rejected) (prev2 := addParam c.previous k a) (w2 := c.waiting)
            (mem'' := (mem'.begin k a).put k ap .rejected) ?_ ?_ ?_)
          · rw [hm]; unfold plan; dsimp only; rw [ha]; dsimp only; rw [if_pos hv, if_neg hb]
          · rw [hm, peer_start hw ha (by rw [R.1.previous]; exact hv.2), H.bad k w ap a inbound hw ha (by omega)]
            rfl
          · have hfresh : mem k a.1 = none := by
              cases h : mem k a.1 with
              | none => rfl
              | some x =>
                obtain ⟨-, hb, h1⟩ := R.1.begun _ _ _ h
                have := (addParam_sorted R.1.sorted hv.2 k).2 _ hb
                omega
            refine R.1.opened (wa := []) ha hv.1 hv.2 rfl (fun _ _ _ => rfl) ?_ ?_ (.inl ⟨rfl, fun _ _ _ h => by cases h⟩)
            · intro x hx; rw [hfresh] at hx; cases hx
            · intro a' o hx; rw [hfresh] at hx; cases hx
      · refine .inr (conclude_say R (r' := .refused) (prev2 := c.previous) (w2 := c.waiting) ?_ ?_ R.1)
        · rw [hm]; unfold plan; dsimp only; rw [ha]; dsimp only; rw [if_neg hv]
        · rw [hm]
          refine peer_start_refused H fun b h => ?_
          rw [ha] at h
          cases h
          rw [R.1.previous]
          exact hv
  | deliver k ap inbound =>
    rw [← hm]
    by_cases hw : (k, ap) ∈ c.waiting
    · exact .inr (deliver_step R hm hw)
    · refine .inr (conclude_say R (r' := .refused) (prev2 := c.previous) (w2 := c.waiting) (mem'' := mem') ?_ ?_ R.1)
      · rw [hm]; unfold plan; dsimp only; rw [if_neg hw]
      · rw [hm]
        unfold peerRespond
        dsimp only
        split
        · rename_i st r m h
          exact absurd h (R.1.idle k ap hw st r m)
        · rfl
  | collect ap ks =>
    rw [← hm]
    cases ha : decodeAggParam ap with
    | error e =>
      refine .inr (conclude_say R (r' := .refused) (prev2 := c.previous) (w2 := c.waiting) (mem'' := mem') ?_ ?_ R.1)
      · rw [hm]; unfold plan; dsimp only; rw [ha]
      · rw [hm]
        unfold peerRespond
        dsimp only
        rw [show (Poplar1.vdaf (Poplar1.mk (poplarIdpf bits)) prims fuel).decodeAggParam ap = .error e from ha]
        rfl
    | ok a =>
      obtain ⟨h1, h2⟩ := R.1.batch ha ks
      have hp : (plan' c) = (.collect ap a ks, c.previous, c.waiting) := by
        rw [hm]; unfold plan; dsimp only; rw [ha]
      have hagg : aggregate (Poplar1.vdaf (Poplar1.mk (poplarIdpf bits)) prims fuel) a
          ((mem'.outs.filter fun o => o.2.1 = ap ∧ o.1 ∈ ks).map (·.2.2)) =
          aggregate (Poplar1.vdaf (Poplar1.mk (poplarIdpf bits)) prims fuel) a
            (((List.range n).filter fun k => k ∈ ks ∧ (mem.out a k).isSome).filterMap (mem.out a)) := by
        rw [aggregate_eq_merge, aggregate_eq_merge, merge_perm h2]
      have hpeer : (peer) mem' (σ c.out) = (do
          let share ← aggregate (Poplar1.vdaf (Poplar1.mk (poplarIdpf bits)) prims fuel) a
            ((mem'.outs.filter fun o => o.2.1 = ap ∧ o.1 ∈ ks).map (·.2.2))
          return (.total ap ((mem'.outs.filter fun o => o.2.1 = ap ∧ o.1 ∈ ks).map (·.1)) share, mem')) := by
        rw [hm]
        unfold peerRespond
        dsimp only
        rw [show (Poplar1.vdaf (Poplar1.mk (poplarIdpf bits)) prims fuel).decodeAggParam ap = .ok a from ha]
      have hbase : (base) mem (planFirst n (.collect ap a ks)) = (do
          let share ← aggregate (Poplar1.vdaf (Poplar1.mk (poplarIdpf bits)) prims fuel) a
            (((List.range n).filter fun k => k ∈ ks ∧ (mem.out a k).isSome).filterMap (mem.out a))
          return (.total a ((List.range n).filter fun k => k ∈ ks ∧ (mem.out a k).isSome) share, mem)) := rfl
      rw [hagg] at hpeer
      cases hs : aggregate (Poplar1.vdaf (Poplar1.mk (poplarIdpf bits)) prims fuel) a
            (((List.range n).filter fun k => k ∈ ks ∧ (mem.out a k).isSome).filterMap (mem.out a)) with
      | error e =>
        rw [hs] at hpeer hbase
        refine .inl ⟨⟨e, ?_⟩, e, hpeer⟩
        unfold Game.Sim.step
        show ((base) mem (planFirst n (plan' c).1) >>= _) = _
        rw [hp, hbase]
        rfl
      | ok share =>
        rw [hs] at hpeer hbase
        refine .inr (conclude R hp hbase (base_noop mem) (wa := []) (ia := []) ?_ hpeer same ?_
          (by intro a js share h; cases h))
        · unfold planResult
          dsimp only
          have : (c.ids.filter fun x => x.2 = ap ∧ x.1 ∈ ks).map Prod.fst =
              (mem'.outs.filter fun o => o.2.1 = ap ∧ o.1 ∈ ks).map (·.1) := by
            rw [← R.1.ids, List.filter_map, List.map_map]
            rfl
          rw [this]
        · intro a' js share' h
          cases h
          exact ⟨ap, _, rfl, ha, h1⟩

/-- The attack in the ping-pong topology and the one of `Spec/Poplar1Oracle.lean` -/
theorem simulation (H : Honest prims fuel bits isLeader n vk ctx reports start) (q : ℕ) :
    ((∃ e, treePlay prims fuel bits ctx n start (Sm).strategy (3 * q) = .error e) ∧
      ∃ e, peerPlay (Poplar1.vdaf (Poplar1.mk (poplarIdpf bits)) prims fuel) prims isLeader vk ctx reports σ q = .error e) ∨
    ∃ rs c mem mem', treePlay prims fuel bits ctx n start (Sm).strategy (3 * q) = .ok (rs, mem) ∧
      (Sm).run (Sm).init rs = (c, []) ∧
      peerPlay (Poplar1.vdaf (Poplar1.mk (poplarIdpf bits)) prims fuel) prims isLeader vk ctx reports σ q = .ok (c.out, mem') ∧
      Rel isLeader n rs c mem mem' := by
  rw [treePlay_game, Prio3.peerPlay_game]
  exact Game.simulate (Sm) (out := SimState.out) (R := Rel isLeader n) ⟨Core.init, fun a js share h => by cases h⟩ rfl
    (fun rs c mem mem' _ R => simulator_step H rs c mem mem' R) q
end

end Vdaf.PopPeer
