import Verif.Proofs.PingPongPrio3

/-! The attack on Prio3 in the ping-pong topology as an attack in the sense of `Spec/PrivacyOracle.lean`. -/

set_option linter.unusedSectionVars false

namespace Vdaf.Prio3
open Spec PingPong

section
variable {F : Type} [NttField F] {Meas Agg : Type} {prims : Prims} {fuel : ℕ}

/-- What the simulator remembers: the replies up to now, the reports for which the verification has begun, those for which
the Leader waits for a message, and those that have been accepted. -/
structure SimState (F : Type) where
  out : List (PeerReply (List F))
  started : List ℕ
  waiting : List ℕ
  ids : List ℕ

/-- What the simulator does for a move: it knows the reply, evaluates TurboSHAKE128, sends a verifier message (obtained
from TurboSHAKE128, or known), or has reports aggregated. -/
inductive SimPlan (F : Type) where
  | say (r : PeerReply (List F))
  | oracle (m : Bytes)
  | send (k : ℕ) (input message : Option Bytes)
  | collect (ks : List ℕ)

variable (P : Prio3 (XofTurboShake128 prims fuel) F Meas Agg) (isLeader : Bool) (ctx : Bytes) (views : List (Transcript F))

/-- What to do when the verification of report `k` is to begin -/
def planStart (c : SimState F) (k : ℕ) (own : List F × Option Bytes) (inbound : Bytes) :
    SimPlan F × List ℕ × List ℕ :=
  if isLeader then
    match firstMessage P own with
    | some m => (.say (.sent m), k :: c.started, k :: c.waiting)
    | none => (.say .rejected, k :: c.started, c.waiting)
  else
    match helperInput P ctx own inbound with
    | some q => (.send k q none, k :: c.started, c.waiting)
    | none => (.say .rejected, k :: c.started, c.waiting)

/-- What to do for a move, and the new lists of reports -/
def plan (c : SimState F) : PeerMove → SimPlan F × List ℕ × List ℕ
  | .turboShake m => (.oracle m, c.started, c.waiting)
  | .cipher key block => (.say (.block (prims.aes key block)), c.started, c.waiting)
  | .start k aggParam inbound =>
    match views[k]?.bind fun t => t.verifierShares[if isLeader then 0 else 1]? with
    | some own =>
      if aggParam = [] ∧ k ∉ c.started then planStart P isLeader ctx c k own inbound
      else (.say .refused, c.started, c.waiting)
    | none => (.say .refused, c.started, c.waiting)
  | .deliver k aggParam inbound =>
    if aggParam = [] ∧ k ∈ c.waiting then
      match lastMessage inbound with
      | some m => (.send k none m, c.started, c.waiting.filter (· ≠ k))
      | none => (.say .rejected, c.started, c.waiting.filter (· ≠ k))
    else (.say .refused, c.started, c.waiting)
  | .collect aggParam ks => (if aggParam = [] then .collect ks else .say .refused, c.started, c.waiting)

/-- The message to be sent, given the reply of TurboSHAKE128 -/
def planMessage (input message : Option Bytes) (r : QueryReply F) : Option Bytes :=
  match input, r with
  | some _, .output s => some (bytesAt s 0 32)
  | _, _ => message

/-- The first move -/
def planFirst : SimPlan F → QueryMove
  | .say _ => .query []
  | .oracle m => .query m
  | .send _ input _ => .query (input.getD [])
  | .collect ks => .attack (.collect ks)

/-- The second move -/
def planSecond (r1 : QueryReply F) : SimPlan F → QueryMove
  | .send k input message => .attack (.send k (planMessage input message r1))
  | _ => .query []

/-- The simulated reply -/
def planReply (c : SimState F) (r1 r2 : QueryReply F) : SimPlan F → PeerReply (List F)
  | .say r => r
  | .oracle _ => match r1 with
    | .output s => .output s
    | .reply _ => .refused
  | .send _ input message => match r2 with
    | .reply (.verdict true) =>
      .finished (if isLeader then none else some ((helperMessage (planMessage input message r1)).getD []))
    | _ => .rejected
  | .collect ks => match r1 with
    | .reply (.share a) => .total [] (c.ids.filter (· ∈ ks)) a
    | _ => .refused

/-- The reports accepted now -/
def planIds (r2 : QueryReply F) : SimPlan F → List ℕ
  | .send k _ _ => match r2 with
    | .reply (.verdict true) => [k]
    | _ => []
  | _ => []

/-- The simulator -/
def simulator (σ : List (PeerReply (List F)) → PeerMove) : Game.Sim (SimState F) QueryMove (QueryReply F) where
  init := ⟨[], [], [], []⟩
  first c := planFirst (plan P isLeader ctx views c (σ c.out)).1
  second c r1 := planSecond r1 (plan P isLeader ctx views c (σ c.out)).1
  third _ _ _ := .query []
  next c r1 r2 _ :=
    let p := plan P isLeader ctx views c (σ c.out)
    ⟨c.out ++ [planReply isLeader c r1 r2 p.1], p.2.1, p.2.2, c.ids ++ planIds r2 p.1⟩

/-- One move of `queryPlay` -/
def queryRespond (ctx : Bytes) (h : ℕ) (ts : List (Transcript F)) (outs : List (ℕ × List F)) :
    QueryMove → Res (QueryReply F × List (ℕ × List F))
  | .query m => return (.output (prims.turboShake m 1), outs)
  | .attack (.send k message) =>
    if k ∈ outs.map Prod.fst then return (.reply (.verdict false), outs)
    else match react P ctx h ts k message with
      | some o => return (.reply (.verdict true), outs ++ [(k, o)])
      | none => return (.reply (.verdict false), outs)
  | .attack (.collect ks) => do
    let a ← aggregate P.vdaf () ((outs.filter fun x => x.1 ∈ ks).map Prod.snd)
    return (.reply (.share a), outs)

theorem queryPlay_game (h : ℕ) (ts : List (Transcript F)) (σ : List (QueryReply F) → QueryMove) (q : ℕ) :
    queryPlay P ctx h ts σ q = Game.play (queryRespond P ctx h ts) [] σ q := by
  induction q with
  | zero => rfl
  | succ q ih =>
    unfold queryPlay Game.play
    rw [ih]
    cases Game.play (queryRespond P ctx h ts) [] σ q with
    | error e => rfl
    | ok r =>
      obtain ⟨rs, outs⟩ := r
      simp only [Except.ok_bind']
      unfold queryRespond
      split
      · rename_i h; rw [h]; rfl
      · rename_i h
        rw [h]
        dsimp only
        split
        · rfl
        · split <;> (rename_i he; rw [he]; rfl)
      · rename_i h
        rw [h]
        dsimp only
        cases aggregate P.vdaf () _ <;> rfl

end

section
variable {Meas AggParam PubShare InShare OutShare AggShare AggRes VState VShare VMsg : Type}
variable (V : VdafImpl Meas AggParam PubShare InShare OutShare AggShare AggRes VState VShare VMsg)

theorem peerPlay_game (prims : Prims) (isLeader : Bool) (verifyKey ctx : Bytes) (reports : List WireReport)
    (σ : List (PeerReply AggShare) → PeerMove) (q : ℕ) :
    peerPlay V prims isLeader verifyKey ctx reports σ q =
      Game.play (peerRespond V prims isLeader verifyKey ctx reports) .empty σ q := by
  induction q with
  | zero => rfl
  | succ q ih => unfold peerPlay Game.play; rw [ih]
end

section
variable {F : Type} [NttField F] {Meas Agg : Type} {prims : Prims} {fuel : ℕ}
variable {P : Prio3 (XofTurboShake128 prims fuel) F Meas Agg} {isLeader : Bool} {ctx : Bytes} {views : List (Transcript F)}
  {σ : List (PeerReply (List F)) → PeerMove} {T : Bytes → ℕ → UInt8} {h : ℕ} {ts : List (Transcript F)}

local notation "Sm" => simulator P isLeader ctx views σ
local notation "plan'" c => plan P isLeader ctx views c (σ (SimState.out c))

/-! ### The simulator's moves -/

theorem acceptedBy_next {rs : List (QueryReply F)} {c : SimState F} (hr : (Sm).run (Sm).init rs = (c, []))
    (r1 r2 r3 : QueryReply F) :
    acceptedBy (Sm).strategy (rs ++ [r1] ++ [r2] ++ [r3]) = acceptedBy (Sm).strategy rs ++ planIds r2 (plan' c).1 := by
  rw [acceptedBy_append, acceptedBy_append, acceptedBy_append, Game.Sim.strategy_first _ hr,
    Game.Sim.strategy_second _ hr, Game.Sim.strategy_third _ hr]
  show _ ++ (match planFirst (plan' c).1, r1 with
    | .attack (.send k _), .reply (.verdict true) => [k]
    | _, _ => []) ++ (match planSecond r1 (plan' c).1, r2 with
    | .attack (.send k _), .reply (.verdict true) => [k]
    | _, _ => []) ++ [] = _
  rcases (plan' c).1 with r | m | ⟨k, i, m⟩ | ks
  · simp [planFirst, planSecond, planIds]
  · simp [planFirst, planSecond, planIds]
  · simp only [planFirst, planSecond, planIds, List.append_nil]
    rcases r2 with s | ⟨_ | _⟩ | a <;> rfl
  · simp [planFirst, planSecond, planIds]

theorem batchesBy_next {rs : List (QueryReply F)} {c : SimState F} (hr : (Sm).run (Sm).init rs = (c, []))
    (r1 r2 r3 : QueryReply F) :
    batchesBy (Sm).strategy (rs ++ [r1] ++ [r2] ++ [r3]) = batchesBy (Sm).strategy rs ++ (match (plan' c).1 with
      | .collect ks => [(acceptedBy (Sm).strategy rs).filter (· ∈ ks)]
      | _ => []) := by
  rw [batchesBy_append, batchesBy_append, batchesBy_append, Game.Sim.strategy_first _ hr,
    Game.Sim.strategy_second _ hr, Game.Sim.strategy_third _ hr]
  show _ ++ (match planFirst (plan' c).1 with
    | .attack (.collect ks) => [(acceptedBy (Sm).strategy rs).filter (· ∈ ks)]
    | _ => []) ++ (match planSecond r1 (plan' c).1 with
    | .attack (.collect ks) => [(acceptedBy (Sm).strategy (rs ++ [r1])).filter (· ∈ ks)]
    | _ => []) ++ [] = _
  rcases (plan' c).1 with r | m | ⟨k, i, m⟩ | ks <;> simp [planFirst, planSecond]

local notation "stepB" c ", " outs => Game.Sim.step Sm (queryRespond (runWith P T) ctx h ts) c outs

theorem step_say {c : SimState F} {r : PeerReply (List F)} (hp : (plan' c).1 = .say r) (outs : List (ℕ × List F)) :
    (stepB c, outs) = .ok (.output (T []), .output (T []), .output (T []), outs) := by
  unfold Game.Sim.step
  show (queryRespond (runWith P T) ctx h ts outs (planFirst (plan' c).1) >>= _) = _
  rw [hp]
  show (queryRespond (runWith P T) ctx h ts outs (planSecond _ (plan' c).1) >>= _) = _
  rw [hp]
  rfl

theorem step_oracle {c : SimState F} {m : Bytes} (hp : (plan' c).1 = .oracle m) (outs : List (ℕ × List F)) :
    (stepB c, outs) = .ok (.output (T m), .output (T []), .output (T []), outs) := by
  unfold Game.Sim.step
  show (queryRespond (runWith P T) ctx h ts outs (planFirst (plan' c).1) >>= _) = _
  rw [hp]
  show (queryRespond (runWith P T) ctx h ts outs (planSecond _ (plan' c).1) >>= _) = _
  rw [hp]
  rfl

theorem respond_send {k : ℕ} {m : Option Bytes} {outs : List (ℕ × List F)} (hk : k ∉ outs.map Prod.fst) {t : Transcript F}
    (ht : ts[k]? = some t) {st : List F × Option Bytes} (hst : t.states[h]? = some st) :
    queryRespond (runWith P T) ctx h ts outs (.attack (.send k m)) =
      .ok (.reply (.verdict (decide (m = st.2))), if m = st.2 then outs ++ [(k, st.1)] else outs) := by
  unfold queryRespond
  dsimp only
  rw [if_neg hk]
  have hreact : react (runWith P T) ctx h ts k m = if m = st.2 then some st.1 else none := by
    unfold react
    rw [show getI ts k = .ok t by unfold getI; rw [ht]]
    simp only [Except.ok_bind']
    rw [show getI t.states h = .ok st by unfold getI; rw [hst]]
    simp only [Except.ok_bind']
    by_cases hm : m = st.2
    · rw [if_pos hm, show (runWith P T).vdaf.verifyNext ctx st _ = .ok (.out st.1) from verifyNext_eq (ctx := ctx) hm]
    · rw [if_neg hm, show (runWith P T).vdaf.verifyNext ctx st _ = .error (.value "joint randomness check failed") from
        verifyNext_ne (ctx := ctx) hm]
  rw [hreact]
  by_cases hm : m = st.2
  · rw [if_pos hm, if_pos hm, decide_eq_true hm]
    rfl
  · rw [if_neg hm, if_neg hm, decide_eq_false hm]
    rfl

theorem step_send {c : SimState F} {k : ℕ} {q m : Option Bytes} (hp : (plan' c).1 = .send k q m)
    {outs : List (ℕ × List F)} (hk : k ∉ outs.map Prod.fst) {t : Transcript F} (ht : ts[k]? = some t)
    {st : List F × Option Bytes} (hst : t.states[h]? = some st) :
    (stepB c, outs) = .ok (.output (T (q.getD [])),
      .reply (.verdict (decide (planMessage q m (.output (T (q.getD [])) : QueryReply F) = st.2))), .output (T []),
      if planMessage q m (.output (T (q.getD [])) : QueryReply F) = st.2 then outs ++ [(k, st.1)] else outs) := by
  unfold Game.Sim.step
  show (queryRespond (runWith P T) ctx h ts outs (planFirst (plan' c).1) >>= _) = _
  rw [hp]
  show (queryRespond (runWith P T) ctx h ts outs (planSecond (.output (T (q.getD []))) (plan' c).1) >>= _) = _
  rw [hp]
  show (queryRespond (runWith P T) ctx h ts outs
    (.attack (.send k (planMessage q m (.output (T (q.getD [])) : QueryReply F)))) >>= _) = _
  rw [respond_send hk ht hst]
  rfl

theorem step_collect {c : SimState F} {ks : List ℕ} (hp : (plan' c).1 = .collect ks) (outs : List (ℕ × List F)) :
    (stepB c, outs) = (do
      let a ← aggregate (runWith P T).vdaf () ((outs.filter fun x => x.1 ∈ ks).map Prod.snd)
      return (.reply (.share a), .output (T []), .output (T []), outs)) := by
  unfold Game.Sim.step
  show (queryRespond (runWith P T) ctx h ts outs (planFirst (plan' c).1) >>= _) = _
  rw [hp]
  show (queryRespond (runWith P T) ctx h ts outs (.attack (.collect ks)) >>= _) = _
  have hq : queryRespond (runWith P T) ctx h ts outs (.attack (.collect ks)) = (do
      let a ← aggregate (runWith P T).vdaf () ((outs.filter fun x => x.1 ∈ ks).map Prod.snd)
      return (.reply (.share a), outs)) := rfl
  rw [hq]
  cases aggregate (runWith P T).vdaf () ((outs.filter fun x => x.1 ∈ ks).map Prod.snd) with
  | error e => rfl
  | ok a =>
    show (queryRespond (runWith P T) ctx h ts outs (planSecond _ (plan' c).1) >>= _) = _
    rw [hp]
    rfl

/-! ### The relation -/

abbrev VS (F : Type) := List F × Option Bytes

variable (P isLeader ctx views σ h ts) in
/-- The simulator, the attack of `Spec/PrivacyOracle.lean` and the attack in the ping-pong topology belong together. -/
structure Rel (rs : List (QueryReply F)) (c : SimState F) (outs : List (ℕ × List F))
    (mem : PeerMemory Unit (VS F) (VS F) (List F)) : Prop where
  ids : outs.map Prod.fst = c.ids
  accepted : acceptedBy (Sm).strategy rs = c.ids
  outs : mem.outs = outs.map fun x => (x.1, ([] : Bytes), x.2)
  started : ∀ k, k ∈ c.started ↔ mem.previous k ≠ []
  other : ∀ k a, a ≠ [] → mem.states k a = .start
  waiting : ∀ k ∈ c.waiting, isLeader = true ∧ ∃ t st m, ts[k]? = some t ∧ t.states[h]? = some st ∧
    mem.states k [] = .continued st 0 m
  idle : ∀ k, k ∉ c.waiting → ∀ st r m, mem.states k [] ≠ .continued st r m
  fresh : ∀ k, k ∉ c.started → k ∉ c.ids
  pending : ∀ k ∈ c.waiting, k ∉ c.ids ∧ k ∈ c.started
  batches : ∀ B ∈ batchesBy (Sm).strategy rs, ∃ share, PeerReply.total [] B share ∈ c.out

theorem Rel.init : Rel P isLeader ctx views σ h ts [] (Sm).init [] .empty where
  ids := rfl
  accepted := rfl
  outs := rfl
  started k := by simp [simulator, PeerMemory.empty]
  other k a ha := rfl
  waiting k hk := absurd hk (by simp [simulator])
  idle k _ st r m := by simp [PeerMemory.empty]
  fresh k _ := by simp [simulator]
  pending k hk := absurd hk (by simp [simulator])
  batches B hB := absurd hB (by simp [batchesBy])

/-- Nothing changes but the replies. -/
theorem Rel.same {rs : List (QueryReply F)} {c : SimState F} {outs : List (ℕ × List F)}
    {mem : PeerMemory Unit (VS F) (VS F) (List F)} (R : Rel P isLeader ctx views σ h ts rs c outs mem)
    (hr : (Sm).run (Sm).init rs = (c, [])) {r1 r2 r3 : QueryReply F} (hp : (plan' c).2 = (c.started, c.waiting))
    (hids : planIds r2 (plan' c).1 = []) (hc : ∀ ks, (plan' c).1 = .collect ks → ∃ a, r1 = .reply (.share a)) :
    Rel P isLeader ctx views σ h ts (rs ++ [r1] ++ [r2] ++ [r3]) ((Sm).next c r1 r2 r3) outs mem where
  ids := by
    show _ = c.ids ++ planIds r2 (plan' c).1
    rw [hids, List.append_nil, R.ids]
  accepted := by
    rw [acceptedBy_next hr, R.accepted]
    rfl
  outs := R.outs
  started := by
    show ∀ k, k ∈ (plan' c).2.1 ↔ _
    rw [hp]
    exact R.started
  other := R.other
  waiting := by
    show ∀ k ∈ (plan' c).2.2, _
    rw [hp]
    exact R.waiting
  idle := by
    show ∀ k, k ∉ (plan' c).2.2 → _
    rw [hp]
    exact R.idle
  fresh := by
    show ∀ k, k ∉ (plan' c).2.1 → k ∉ c.ids ++ planIds r2 (plan' c).1
    rw [hp, hids, List.append_nil]
    exact R.fresh
  pending := by
    show ∀ k ∈ (plan' c).2.2, k ∉ c.ids ++ planIds r2 (plan' c).1 ∧ k ∈ (plan' c).2.1
    rw [hp, hids, List.append_nil]
    exact R.pending
  batches B hB := by
    rw [batchesBy_next hr, List.mem_append] at hB
    show ∃ share, _ ∈ c.out ++ [planReply isLeader c r1 r2 (plan' c).1]
    rcases hB with hB | hB
    · obtain ⟨share, hs⟩ := R.batches B hB
      exact ⟨share, List.mem_append_left _ hs⟩
    · split at hB
      · rename_i ks hk
        obtain ⟨a, rfl⟩ := hc ks hk
        rw [List.mem_singleton, R.accepted] at hB
        subst hB
        rw [hk]
        exact ⟨a, List.mem_append_right _ (List.mem_singleton.2 rfl)⟩
      · cases hB

/-- The state of report `k` changes. -/
theorem Rel.put {rs : List (QueryReply F)} {c : SimState F} {outs : List (ℕ × List F)}
    {mem mem0 : PeerMemory Unit (VS F) (VS F) (List F)} (R : Rel P isLeader ctx views σ h ts rs c outs mem)
    (hr : (Sm).run (Sm).init rs = (c, [])) {r1 r2 r3 : QueryReply F} {k : ℕ}
    {s : PingPongState (VS F) (VS F) (List F)} (hmem : mem0.states = mem.states ∧ mem0.outs = mem.outs)
    (hpre : ∀ i, i ∈ (plan' c).2.1 ↔ mem0.previous i ≠ []) (hst : ∀ i, i ∉ (plan' c).2.1 → i ∉ c.started)
    (hk : k ∈ (plan' c).2.1)
    (hw : ∀ i, i ≠ k → (i ∈ (plan' c).2.2 ↔ i ∈ c.waiting))
    (hw' : k ∈ (plan' c).2.2 → isLeader = true ∧ (∃ t st m, ts[k]? = some t ∧ t.states[h]? = some st ∧ s = .continued st 0 m) ∧
      k ∉ c.ids)
    (hid : k ∉ (plan' c).2.2 → ∀ st r m, s ≠ .continued st r m)
    (hids : planIds r2 (plan' c).1 = if (outShare s).isSome then [k] else [])
    (hc : ∀ ks, (plan' c).1 ≠ .collect ks) :
    Rel P isLeader ctx views σ h ts (rs ++ [r1] ++ [r2] ++ [r3]) ((Sm).next c r1 r2 r3)
      (outs ++ ((outShare s).map fun o => (k, o)).toList) (mem0.put k [] s) where
  ids := by
    show _ = c.ids ++ planIds r2 (plan' c).1
    rw [hids, List.map_append, R.ids]
    cases outShare s <;> rfl
  accepted := by
    rw [acceptedBy_next hr, R.accepted]
    rfl
  outs := by
    show mem0.outs ++ _ = _
    rw [hmem.2, List.map_append, R.outs]
    cases outShare s <;> rfl
  started := hpre
  other i a ha := by
    show (if i = k ∧ a = [] then s else mem0.states i a) = _
    rw [if_neg (fun h => ha h.2), hmem.1]
    exact R.other i a ha
  waiting i hi := by
    show _ ∧ ∃ t st m, _ ∧ _ ∧ (if i = k ∧ [] = [] then s else mem0.states i []) = _
    by_cases hik : i = k
    · subst hik
      obtain ⟨h1, ⟨t, st, m, h2, h3, h4⟩, -⟩ := hw' hi
      exact ⟨h1, t, st, m, h2, h3, by rw [if_pos ⟨rfl, rfl⟩, h4]⟩
    · rw [if_neg (fun h => hik h.1), hmem.1]
      exact R.waiting i ((hw i hik).1 hi)
  idle i hi := by
    show ∀ st r m, (if i = k ∧ [] = [] then s else mem0.states i []) ≠ _
    by_cases hik : i = k
    · subst hik
      rw [if_pos ⟨rfl, rfl⟩]
      exact hid hi
    · rw [if_neg (fun h => hik h.1), hmem.1]
      exact R.idle i fun h => hi ((hw i hik).2 h)
  fresh i hi := by
    show i ∉ c.ids ++ planIds r2 (plan' c).1
    rw [hids, List.mem_append, not_or]
    refine ⟨R.fresh i (hst i hi), fun h => ?_⟩
    split at h
    · rw [List.mem_singleton] at h
      subst h
      exact hi hk
    · cases h
  pending i hi := by
    show i ∉ c.ids ++ planIds r2 (plan' c).1 ∧ i ∈ (plan' c).2.1
    by_cases hik : i = k
    · subst hik
      obtain ⟨h1, ⟨t, st, m, h2, h3, h4⟩, h5⟩ := hw' hi
      refine ⟨?_, hk⟩
      rw [hids, h4]
      simpa [outShare] using h5
    · have := R.pending i ((hw i hik).1 hi)
      refine ⟨?_, by_contra fun h => hst i h this.2⟩
      rw [hids, List.mem_append, not_or]
      refine ⟨this.1, ?_⟩
      split <;> simp [hik]
  batches B hB := by
    rw [batchesBy_next hr, List.mem_append] at hB
    show ∃ share, _ ∈ c.out ++ [planReply isLeader c r1 r2 (plan' c).1]
    rcases hB with hB | hB
    · obtain ⟨share, hs⟩ := R.batches B hB
      exact ⟨share, List.mem_append_left _ hs⟩
    · split at hB
      · rename_i ks hk
        exact absurd hk (hc ks)
      · cases hB

/-- What is known of the reports -/
structure Honest (P : Prio3 (XofTurboShake128 prims fuel) F Meas Agg) (T : Bytes → ℕ → UInt8) (isLeader : Bool)
    (vk ctx : Bytes) (ts : List (Transcript F)) (reports : List WireReport) : Prop where
  len : reports.length = ts.length
  report : ∀ (k : ℕ) (t : Transcript F) (w : WireReport), ts[k]? = some t → reports[k]? = some w → ∃ st own : VS F,
    t.states[if isLeader then 0 else 1]? = some st ∧ t.verifierShares[if isLeader then 0 else 1]? = some own ∧
    ∀ inbound, (if isLeader then leaderInit (runWith P T).vdaf vk ctx [] w.nonce w.publicShare w.leaderShare
      else helperInit (runWith P T).vdaf vk ctx [] w.nonce w.publicShare w.helperShare inbound) =
    .ok (if isLeader then match firstMessage P own with
        | some m => .continued st 0 m
        | none => .rejected
      else match helperInput P ctx own inbound with
        | some q => verdict st (q.map fun m => bytesAt (T m) 0 32) fun o =>
          .finishedWithOutbound o ((helperMessage (q.map fun m => bytesAt (T m) 0 32)).getD [])
        | none => .rejected)

variable {vk : Bytes} {reports : List WireReport}
local notation "respond'" => peerRespond (Prio3.vdaf (runWith P T)) (withOracle prims T) isLeader vk ctx reports

theorem simulator_step (H : Honest P T isLeader vk ctx ts reports)
    (hv : views = ts.map (Transcript.view (if isLeader then 0 else 1))) (hh : h = if isLeader then 0 else 1)
    {rs : List (QueryReply F)} {c : SimState F}
    {outs : List (ℕ × List F)} {mem : PeerMemory Unit (VS F) (VS F) (List F)}
    (hr : (Sm).run (Sm).init rs = (c, [])) (R : Rel P isLeader ctx views σ h ts rs c outs mem) :
      ((∃ e, (stepB c, outs) = .error e) ∧ ∃ e, respond' mem (σ c.out) = .error e) ∨
      ∃ r1 r2 r3 outs' r' mem', (stepB c, outs) = .ok (r1, r2, r3, outs') ∧
        respond' mem (σ c.out) = .ok (r', mem') ∧ ((Sm).next c r1 r2 r3).out = c.out ++ [r'] ∧
        Rel P isLeader ctx views σ h ts (rs ++ [r1] ++ [r2] ++ [r3]) ((Sm).next c r1 r2 r3) outs' mem' := by
  -- the reply is known, and nothing changes
  have known : ∀ r, (plan' c) = (.say r, c.started, c.waiting) → respond' mem (σ c.out) = .ok (r, mem) →
      ∃ r1 r2 r3 outs' r' mem', (stepB c, outs) = .ok (r1, r2, r3, outs') ∧
        respond' mem (σ c.out) = .ok (r', mem') ∧ ((Sm).next c r1 r2 r3).out = c.out ++ [r'] ∧
        Rel P isLeader ctx views σ h ts (rs ++ [r1] ++ [r2] ++ [r3]) ((Sm).next c r1 r2 r3) outs' mem' := by
    intro r hp hq
    refine ⟨_, _, _, _, r, mem, step_say (by rw [hp]) outs, hq, ?_, R.same hr (by rw [hp]) (by rw [hp]; rfl)
      (fun ks hk => by rw [hp] at hk; cases hk)⟩
    show c.out ++ [planReply isLeader c _ _ (plan' c).1] = _
    rw [hp]
    rfl
  cases hm : σ c.out with
  | turboShake m =>
    right
    have hp : (plan' c) = (.oracle m, c.started, c.waiting) := by rw [hm]; rfl
    refine ⟨_, _, _, _, .output (T m), mem, step_oracle (by rw [hp]) outs, rfl, ?_, R.same hr (by rw [hp]) (by rw [hp]; rfl)
      (fun ks hk => by rw [hp] at hk; cases hk)⟩
    show c.out ++ [planReply isLeader c _ _ (plan' c).1] = _
    rw [hp]
    rfl
  | cipher key block =>
    right
    rw [← hm]
    exact known (.block (prims.aes key block)) (by rw [hm]; rfl) (by rw [hm]; rfl)
  | collect a ks =>
    by_cases ha : a = []
    swap
    · right
      rw [← hm]
      refine known .refused (by rw [hm]; unfold plan; dsimp only; rw [if_neg ha]) ?_
      rw [hm]
      unfold peerRespond
      have : (runWith P T).vdaf.decodeAggParam a = .error (.value "invalid encoded aggregation parameter") := by
        show decodeAggParam a = _
        unfold decodeAggParam
        simp [raiseIf, ha]
      dsimp only
      rw [this]
      rfl
    subst ha
    have hp : (plan' c) = (.collect ks, c.started, c.waiting) := by rw [hm]; rfl
    have h1 : respond' mem (.collect [] ks) = (do
        let a ← aggregate (runWith P T).vdaf () ((outs.filter fun x => x.1 ∈ ks).map Prod.snd)
        return (.total [] (c.ids.filter (· ∈ ks)) a, mem)) := by
      unfold peerRespond
      dsimp only
      rw [show (runWith P T).vdaf.decodeAggParam [] = .ok () from rfl]
      dsimp only
      have hb : (mem.outs.filter fun o => o.2.1 = [] ∧ o.1 ∈ ks) =
          (outs.filter fun x => x.1 ∈ ks).map fun x => (x.1, ([] : Bytes), x.2) := by
        rw [R.outs, List.filter_map]
        congr 1
        refine List.filter_congr fun x _ => ?_
        simp
      rw [hb, List.map_map, List.map_map, ← R.ids, List.filter_map]
      rfl
    rw [step_collect (by rw [hp]), h1]
    cases aggregate (runWith P T).vdaf () ((outs.filter fun x => x.1 ∈ ks).map Prod.snd) with
    | error e => exact .inl ⟨⟨e, rfl⟩, e, rfl⟩
    | ok a =>
      right
      refine ⟨_, _, _, _, _, mem, rfl, rfl, ?_, R.same hr (by rw [hp]) (by rw [hp]; rfl) fun _ _ => ⟨a, rfl⟩⟩
      show c.out ++ [planReply isLeader c _ _ (plan' c).1] = _
      rw [hp]
      rfl
  | start k a inbound =>
    right
    rw [← hm]
    cases hk : reports[k]? with
    | none =>
      have ht : ts[k]? = none := by
        rw [List.getElem?_eq_none_iff] at hk ⊢
        rw [← H.len]
        exact hk
      refine known .refused ?_ ?_
      · rw [hm, hv]
        unfold plan
        dsimp only
        rw [List.getElem?_map, ht]
        rfl
      · rw [hm]
        unfold peerRespond
        dsimp only
        rw [hk]
        rfl
    | some w =>
      obtain ⟨t, ht⟩ : ∃ t, ts[k]? = some t := by
        have hlt := (List.getElem?_eq_some_iff.1 hk).1
        rw [H.len] at hlt
        exact ⟨_, List.getElem?_eq_getElem hlt⟩
      obtain ⟨st, own, hst, hown, hinit⟩ := H.report k t w ht hk
      have hview : (views[k]?.bind fun t => t.verifierShares[if isLeader then 0 else 1]?) = some own := by
        rw [hv, List.getElem?_map, ht]
        exact hown
      by_cases ha : a = []
      swap
      · refine known .refused ?_ ?_
        · rw [hm]
          unfold plan
          dsimp only
          rw [hview]
          dsimp only
          rw [if_neg fun h => ha h.1]
        · rw [hm]
          unfold peerRespond
          have : (runWith P T).vdaf.decodeAggParam a = .error (.value "invalid encoded aggregation parameter") := by
            show decodeAggParam a = _
            unfold decodeAggParam
            simp [raiseIf, ha]
          dsimp only
          rw [hk, this]
          rfl
      subst ha
      by_cases hs : k ∈ c.started
      · refine known .refused ?_ ?_
        · rw [hm]
          unfold plan
          dsimp only
          rw [hview]
          dsimp only
          rw [if_neg fun h => h.2 hs]
        · rw [hm]
          unfold peerRespond
          dsimp only
          rw [hk, show (runWith P T).vdaf.decodeAggParam [] = .ok () from rfl]
          have : (runWith P T).vdaf.isValid () (mem.previous k) = .ok false := by
            show isValid () (mem.previous k) = _
            unfold isValid
            have := (R.started k).1 hs
            cases hp : mem.previous k with
            | nil => exact absurd hp this
            | cons x l => rfl
          dsimp only
          rw [this]
          rfl
      have hp : (plan' c) = planStart P isLeader ctx c k own inbound := by
        rw [hm]
        unfold plan
        dsimp only
        rw [hview]
        dsimp only
        rw [if_pos ⟨rfl, hs⟩]
      have hprev : mem.previous k = [] := by
        by_contra hne
        exact hs ((R.started k).2 hne)
      have hq : ∀ s, (if isLeader then leaderInit (runWith P T).vdaf vk ctx [] w.nonce w.publicShare w.leaderShare
          else helperInit (runWith P T).vdaf vk ctx [] w.nonce w.publicShare w.helperShare inbound) = .ok s →
          respond' mem (.start k [] inbound) = .ok (seenOf s, (mem.begin k ()).put k [] s) := by
        intro s hs'
        unfold peerRespond
        dsimp only
        rw [hk, show (runWith P T).vdaf.decodeAggParam [] = .ok () from rfl]
        have : (runWith P T).vdaf.isValid () (mem.previous k) = .ok true := by
          show isValid () (mem.previous k) = _
          rw [hprev]
          rfl
        dsimp only
        rw [this]
        dsimp only
        cases isLeader <;> (simp only [if_true, Bool.false_eq_true, if_false] at hs' ⊢; rw [hs']; rfl)
      have hpre : ∀ i, i ∈ k :: c.started ↔ (mem.begin k ()).previous i ≠ [] := by
        intro i
        show _ ↔ (if i = k then mem.previous k ++ [()] else mem.previous i) ≠ []
        rw [List.mem_cons]
        by_cases hik : i = k
        · rw [if_pos hik]
          simp [hik]
        · rw [if_neg hik, ← R.started i]
          simp [hik]
      have hkid : k ∉ c.ids := R.fresh k hs
      rw [hm]
      rw [hq _ (hinit inbound)]
      unfold planStart at hp
      cases isLeader with
      | true =>
        simp only [if_true] at hp hst ⊢
        cases hf : firstMessage P own with
        | none =>
          rw [hf] at hp
          dsimp only at hp ⊢
          refine ⟨_, _, _, _, _, _, step_say (by rw [hp]) outs, rfl, ?_, ?_⟩
          · show c.out ++ [planReply true c _ _ (plan P true ctx views c (σ c.out)).1] = _
            rw [hp]
            rfl
          · have := R.put (mem0 := mem.begin k ()) hr (r1 := .output (T [])) (r2 := .output (T [])) (r3 := .output (T []))
              (k := k) (s := .rejected)
              ⟨rfl, rfl⟩ (by rw [hp]; exact hpre) (by rw [hp]; intro i hi h; exact hi (List.mem_cons_of_mem _ h))
              (by rw [hp]; exact List.mem_cons_self) (by rw [hp]; intro i _; rfl)
              (by rw [hp]; intro hw; exact absurd (R.pending k hw).2 hs) (by intro _ _ _ _ h; cases h) (by rw [hp]; rfl)
              (by intro ks h; rw [hp] at h; cases h)
            simpa [outShare] using this
        | some m =>
          rw [hf] at hp
          dsimp only at hp ⊢
          refine ⟨_, _, _, _, _, _, step_say (by rw [hp]) outs, rfl, ?_, ?_⟩
          · show c.out ++ [planReply true c _ _ (plan P true ctx views c (σ c.out)).1] = _
            rw [hp]
            rfl
          · have := R.put (mem0 := mem.begin k ()) hr (r1 := .output (T [])) (r2 := .output (T [])) (r3 := .output (T []))
              (k := k) (s := .continued st 0 m)
              ⟨rfl, rfl⟩ (by rw [hp]; exact hpre) (by rw [hp]; intro i hi h; exact hi (List.mem_cons_of_mem _ h))
              (by rw [hp]; exact List.mem_cons_self) (by rw [hp]; intro i hi; simp [hi])
              (by rw [hp]; intro _; exact ⟨rfl, ⟨t, st, m, ht, by rw [hh]; exact hst, rfl⟩, hkid⟩)
              (by rw [hp]; intro hn; exact absurd List.mem_cons_self hn) (by rw [hp]; rfl)
              (by intro ks h; rw [hp] at h; cases h)
            simpa [outShare] using this
      | false =>
        simp only [Bool.false_eq_true, if_false] at hp hst ⊢
        cases hf : helperInput P ctx own inbound with
        | none =>
          rw [hf] at hp
          dsimp only at hp ⊢
          refine ⟨_, _, _, _, _, _, step_say (by rw [hp]) outs, rfl, ?_, ?_⟩
          · show c.out ++ [planReply false c _ _ (plan P false ctx views c (σ c.out)).1] = _
            rw [hp]
            rfl
          · have := R.put (mem0 := mem.begin k ()) hr (r1 := .output (T [])) (r2 := .output (T [])) (r3 := .output (T []))
              (k := k) (s := .rejected)
              ⟨rfl, rfl⟩ (by rw [hp]; exact hpre) (by rw [hp]; intro i hi h; exact hi (List.mem_cons_of_mem _ h))
              (by rw [hp]; exact List.mem_cons_self) (by rw [hp]; intro i _; rfl)
              (by rw [hp]; intro hw; exact absurd (R.pending k hw).2 hs) (by intro _ _ _ _ h; cases h) (by rw [hp]; rfl)
              (by intro ks h; rw [hp] at h; cases h)
            simpa [outShare] using this
        | some q =>
          rw [hf] at hp
          dsimp only at hp ⊢
          have hmsg : planMessage q none (.output (T (q.getD [])) : QueryReply F) =
              q.map fun m => bytesAt (T m) 0 32 := by
            cases q <;> rfl
          have hstep := step_send (T := T) (h := h) (ts := ts) (show (plan P false ctx views c (σ c.out)).1 = _ by rw [hp])
            (outs := outs) (by rw [R.ids]; exact hkid) ht (by rw [hh]; exact hst)
          refine ⟨_, _, _, _, _, _, hstep, rfl, ?_, ?_⟩
          · show c.out ++ [planReply false c _ _ (plan P false ctx views c (σ c.out)).1] = _
            rw [hp, hmsg]
            unfold verdict
            by_cases hv : (q.map fun m => bytesAt (T m) 0 32) = st.2
            · rw [if_pos hv, decide_eq_true hv]
              unfold planReply
              dsimp only
              rw [hmsg]
              rfl
            · rw [if_neg hv, decide_eq_false hv]
              rfl
          · rw [hmsg]
            have := fun s hs2 hs3 => R.put (mem0 := mem.begin k ()) hr (r1 := .output (T (q.getD [])))
              (r2 := .reply (.verdict (decide ((q.map fun m => bytesAt (T m) 0 32) = st.2)))) (r3 := .output (T []))
              (k := k) (s := s)
              ⟨rfl, rfl⟩ (by rw [hp]; exact hpre) (by rw [hp]; intro i hi h; exact hi (List.mem_cons_of_mem _ h))
              (by rw [hp]; exact List.mem_cons_self) (by rw [hp]; intro i _; rfl)
              (by rw [hp]; intro hw; exact absurd (R.pending k hw).2 hs) (fun _ => hs2) hs3
              (by intro ks h; rw [hp] at h; cases h)
            unfold verdict
            by_cases hv : (q.map fun m => bytesAt (T m) 0 32) = st.2
            · rw [if_pos hv, if_pos hv]
              exact this (.finishedWithOutbound (.out st.1) _) (by intro _ _ _ h; cases h)
                (by rw [hp, decide_eq_true hv]; rfl)
            · rw [if_neg hv, if_neg hv]
              simpa [outShare] using this .rejected (by intro _ _ _ h; cases h) (by rw [hp, decide_eq_false hv]; rfl)
  | deliver k a inbound =>
    right
    rw [← hm]
    by_cases hk : a = [] ∧ k ∈ c.waiting
    swap
    · refine known .refused ?_ ?_
      · rw [hm]
        unfold plan
        dsimp only
        rw [if_neg hk]
      · rw [hm]
        unfold peerRespond
        dsimp only
        split
        · rename_i st r m hst
          by_cases ha : a = []
          · subst ha
            exact absurd hst (R.idle k (fun h => hk ⟨rfl, h⟩) st r m)
          · exact absurd ((R.other k a ha).symm.trans hst) (by intro h; cases h)
        · rfl
    obtain ⟨rfl, hk⟩ := hk
    obtain ⟨hL, t, st, m0, ht, hst, hs⟩ := R.waiting k hk
    subst hL
    have hkid := (R.pending k hk).1
    have hks := (R.pending k hk).2
    have hq : peerRespond (runWith P T).vdaf (withOracle prims T) true vk ctx reports mem (.deliver k [] inbound) = .ok (seenOf (match lastMessage inbound with
        | some m => verdict st m .finished
        | none => .rejected), mem.put k [] (match lastMessage inbound with
        | some m => verdict st m .finished
        | none => .rejected)) := by
      unfold peerRespond
      dsimp only
      rw [hs]
      dsimp only
      rw [if_pos rfl, leaderContinued_honest]
      rfl
    rw [hm, hq]
    have hpre : ∀ i, i ∈ c.started ↔ mem.previous i ≠ [] := R.started
    have hw : ∀ i, i ≠ k → (i ∈ c.waiting.filter (· ≠ k) ↔ i ∈ c.waiting) := by
      intro i hi
      simp [hi]
    have hw' : k ∉ c.waiting.filter (· ≠ k) := by simp
    cases hl : lastMessage inbound with
    | none =>
      have hp : (plan P true ctx views c (σ c.out)) = (.say .rejected, c.started, c.waiting.filter (· ≠ k)) := by
        rw [hm]
        unfold plan
        dsimp only
        rw [if_pos ⟨rfl, hk⟩, hl]
      dsimp only
      refine ⟨_, _, _, _, _, _, step_say (by rw [hp]) outs, rfl, ?_, ?_⟩
      · show c.out ++ [planReply true c _ _ (plan P true ctx views c (σ c.out)).1] = _
        rw [hp]
        rfl
      · have := R.put (mem0 := mem) hr (r1 := .output (T [])) (r2 := .output (T [])) (r3 := .output (T []))
          (k := k) (s := .rejected) ⟨rfl, rfl⟩ (by rw [hp]; exact hpre) (by rw [hp]; intro i hi h; exact hi h)
          (by rw [hp]; exact hks) (by rw [hp]; exact hw)
          (by rw [hp]; intro h; exact absurd h hw') (by intro _ _ _ _ h; cases h) (by rw [hp]; rfl)
          (by intro ks h; rw [hp] at h; cases h)
        simpa [outShare] using this
    | some m =>
      have hp : (plan P true ctx views c (σ c.out)) = (.send k none m, c.started, c.waiting.filter (· ≠ k)) := by
        rw [hm]
        unfold plan
        dsimp only
        rw [if_pos ⟨rfl, hk⟩, hl]
      dsimp only
      have hstep := step_send (T := T) (h := h) (ts := ts) (show (plan P true ctx views c (σ c.out)).1 = _ by rw [hp])
        (outs := outs) (by rw [R.ids]; exact hkid) ht hst
      have hmsg : planMessage none m (.output (T ((none : Option Bytes).getD [])) : QueryReply F) = m := rfl
      rw [hmsg] at hstep
      refine ⟨_, _, _, _, _, _, hstep, rfl, ?_, ?_⟩
      · show c.out ++ [planReply true c _ _ (plan P true ctx views c (σ c.out)).1] = _
        rw [hp]
        unfold verdict
        by_cases hv : m = st.2
        · rw [if_pos hv, decide_eq_true hv]
          rfl
        · rw [if_neg hv, decide_eq_false hv]
          rfl
      · have := fun s hs2 hs3 => R.put (mem0 := mem) hr (r1 := .output (T []))
          (r2 := .reply (.verdict (decide (m = st.2)))) (r3 := .output (T []))
          (k := k) (s := s) ⟨rfl, rfl⟩ (by rw [hp]; exact hpre) (by rw [hp]; intro i hi h; exact hi h)
          (by rw [hp]; exact hks) (by rw [hp]; exact hw)
          (by rw [hp]; intro h; exact absurd h hw') (fun _ => hs2) hs3
          (by intro ks h; rw [hp] at h; cases h)
        unfold verdict
        by_cases hv : m = st.2
        · rw [if_pos hv, if_pos hv]
          exact this (.finished (.out st.1)) (by intro _ _ _ h; cases h) (by rw [hp, decide_eq_true hv]; rfl)
        · rw [if_neg hv, if_neg hv]
          simpa [outShare] using this .rejected (by intro _ _ _ h; cases h) (by rw [hp, decide_eq_false hv]; rfl)

end
end Vdaf.Prio3
