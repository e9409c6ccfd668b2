import Verif.Spec.PrivacyActive
import Verif.Proofs.PrivacyMain

/-! The moves of a coalition that does not follow the protocol. -/

set_option linter.unusedSectionVars false

namespace Vdaf
open Finset Spec

variable {F : Type} [NttField F] {Meas Agg : Type}

theorem acceptedIn_append (σ : List (Reply F) → Move) (rs : List (Reply F)) (r : Reply F) :
    acceptedIn σ (rs ++ [r]) = acceptedIn σ rs ++ (match σ rs, r with
      | .send k _, .verdict true => [k]
      | _, _ => []) := by
  unfold acceptedIn
  rw [List.length_append, List.length_singleton, List.range_succ, List.filterMap_append]
  congr 1
  · refine List.filterMap_congr fun i hi => ?_
    have hi := List.mem_range.1 hi
    rw [List.take_append_of_le_length hi.le, List.getElem?_append_left hi]
  · rw [List.filterMap_cons, List.filterMap_nil]
    rw [List.take_append_of_le_length le_rfl, List.take_length, List.getElem?_append_right le_rfl]
    simp only [Nat.sub_self, List.getElem?_cons_zero]
    rcases σ rs with ⟨k, m⟩ | ks <;> rcases r with ⟨_ | _⟩ | a <;> rfl

theorem batchesIn_append (σ : List (Reply F) → Move) (rs : List (Reply F)) (r : Reply F) :
    batchesIn σ (rs ++ [r]) = batchesIn σ rs ++ (match σ rs with
      | .send _ _ => []
      | .collect ks => [(acceptedIn σ rs).filter (· ∈ ks)]) := by
  unfold batchesIn
  rw [List.length_append, List.length_singleton, List.range_succ, List.filterMap_append]
  congr 1
  · refine List.filterMap_congr fun i hi => ?_
    have hi := List.mem_range.1 hi
    rw [List.take_append_of_le_length hi.le]
  · rw [List.filterMap_cons, List.filterMap_nil]
    rw [List.take_append_of_le_length le_rfl, List.take_length]
    rcases σ rs with ⟨k, m⟩ | ks <;> rfl

/-- `Spec.play` with the reactions of the honest Aggregator given. -/
def playR (agg : List (List F) → Res (List F)) (r : ℕ → Option Bytes → Option (List F)) (σ : List (Reply F) → Move) :
    ℕ → Res (List (Reply F) × List (ℕ × List F))
  | 0 => return ([], [])
  | q + 1 => do
    let (replies, outs) ← playR agg r σ q
    match σ replies with
    | .send k message =>
      if k ∈ outs.map Prod.fst then return (replies ++ [.verdict false], outs)
      else match r k message with
        | some o => return (replies ++ [.verdict true], outs ++ [(k, o)])
        | none => return (replies ++ [.verdict false], outs)
    | .collect ks => do
      let a ← agg ((outs.filter fun x => x.1 ∈ ks).map Prod.snd)
      return (replies ++ [.share a], outs)

theorem play_eq {X : Xof} (P : Prio3 X F Meas Agg) (ctx : Bytes) (h : ℕ) (ts : List (Transcript F))
    (σ : List (Reply F) → Move) (q : ℕ) :
    play P ctx h ts σ q = playR (Spec.aggregate P.vdaf ()) (react P ctx h ts) σ q := by
  induction q with
  | zero => rfl
  | succ q ih => unfold play playR; rw [ih]; rfl

/-- One more move. -/
theorem playR_succ {agg : List (List F) → Res (List F)} {r : ℕ → Option Bytes → Option (List F)}
    {σ : List (Reply F) → Move} {q : ℕ} {x : List (Reply F) × List (ℕ × List F)} :
    playR agg r σ (q + 1) = .ok x ↔ ∃ rs outs, playR agg r σ q = .ok (rs, outs) ∧
      ((∃ k m, σ rs = .send k m ∧ k ∈ outs.map Prod.fst ∧ x = (rs ++ [.verdict false], outs)) ∨
       (∃ k m o, σ rs = .send k m ∧ k ∉ outs.map Prod.fst ∧ r k m = some o ∧
          x = (rs ++ [.verdict true], outs ++ [(k, o)])) ∨
       (∃ k m, σ rs = .send k m ∧ k ∉ outs.map Prod.fst ∧ r k m = none ∧ x = (rs ++ [.verdict false], outs)) ∨
       ∃ ks a, σ rs = .collect ks ∧ agg ((outs.filter fun x => x.1 ∈ ks).map Prod.snd) = .ok a ∧
          x = (rs ++ [.share a], outs)) := by
  rw [playR, Except.bind_eq_ok]
  constructor
  · rintro ⟨⟨rs, outs⟩, h1, h2⟩
    refine ⟨rs, outs, h1, ?_⟩
    dsimp only at h2
    split at h2
    · next k m hs =>
      split at h2
      · next hk => cases h2; exact .inl ⟨k, m, hs, hk, rfl⟩
      · next hk =>
        split at h2
        · next o ho => cases h2; exact .inr (.inl ⟨k, m, o, hs, hk, ho, rfl⟩)
        · next ho => cases h2; exact .inr (.inr (.inl ⟨k, m, hs, hk, ho, rfl⟩))
    · next ks hs =>
      obtain ⟨a, h3, h2⟩ := Except.bind_eq_ok.1 h2
      cases h2
      exact .inr (.inr (.inr ⟨ks, a, hs, h3, rfl⟩))
  · rintro ⟨rs, outs, h1, h2⟩
    refine ⟨(rs, outs), h1, ?_⟩
    dsimp only
    rcases h2 with ⟨k, m, hs, hk, rfl⟩ | ⟨k, m, o, hs, hk, ho, rfl⟩ | ⟨k, m, hs, hk, ho, rfl⟩ | ⟨ks, a, hs, h3, rfl⟩
    · rw [hs]; simp only [if_pos hk]; rfl
    · rw [hs]; simp only [if_neg hk, ho]; rfl
    · rw [hs]; simp only [if_neg hk, ho]; rfl
    · rw [hs]; simp only [h3]; rfl

/-- The reaction of an Aggregator that accepts the messages `msg` for the reports `0, …, n - 1`, with the output shares
`os`. -/
def reactTo (n : ℕ) (msg : ℕ → Option Bytes) (os : ℕ → List F) (k : ℕ) (m : Option Bytes) : Option (List F) :=
  if k < n ∧ m = msg k then some (os k) else none

theorem playR_inv {agg : List (List F) → Res (List F)} {n : ℕ} {msg : ℕ → Option Bytes} {os : ℕ → List F}
    {σ : List (Reply F) → Move} {q : ℕ} {rs : List (Reply F)} {outs : List (ℕ × List F)}
    (h : playR agg (reactTo n msg os) σ q = .ok (rs, outs)) :
    outs = (acceptedIn σ rs).map (fun k => (k, os k)) ∧ ∀ k ∈ acceptedIn σ rs, k < n := by
  induction q generalizing rs outs with
  | zero => cases h; simp [acceptedIn]
  | succ q ih =>
    obtain ⟨rs', outs', h1, h2⟩ := playR_succ.1 h
    obtain ⟨i1, i2⟩ := ih h1
    rcases h2 with ⟨k, m, hs, hk, e⟩ | ⟨k, m, o, hs, hk, ho, e⟩ | ⟨k, m, hs, hk, ho, e⟩ | ⟨ks, a, hs, h3, e⟩ <;>
      cases e <;> rw [acceptedIn_append, hs]
    · simpa using ⟨i1, i2⟩
    · unfold reactTo at ho
      split at ho
      · next hc =>
        cases ho
        refine ⟨by rw [i1]; simp, fun j hj => ?_⟩
        simp only [List.mem_append, List.mem_singleton] at hj
        rcases hj with hj | rfl
        · exact i2 j hj
        · exact hc.1
      · cases ho
    · simpa using ⟨i1, i2⟩
    · simpa using ⟨i1, i2⟩

theorem filter_outs (l : List ℕ) (os : ℕ → List F) (ks : List ℕ) :
    (((l.map fun k => (k, os k)).filter fun x => x.1 ∈ ks).map Prod.snd) = (l.filter (· ∈ ks)).map os := by
  rw [List.filter_map, List.map_map]
  rfl

/-- The replies are the same for other output shares if the aggregate shares of all the batches are the same. -/
theorem playR_congr {agg : List (List F) → Res (List F)} {n : ℕ} {msg : ℕ → Option Bytes} {os os' : ℕ → List F}
    {σ : List (Reply F) → Move} {q : ℕ} {rs : List (Reply F)} {outs : List (ℕ × List F)}
    (h : playR agg (reactTo n msg os) σ q = .ok (rs, outs))
    (hb : ∀ B ∈ batchesIn σ rs, (∀ k ∈ B, k < n) → ∀ a, agg (B.map os) = .ok a → agg (B.map os') = .ok a) :
    ∃ outs', playR agg (reactTo n msg os') σ q = .ok (rs, outs') := by
  induction q generalizing rs outs with
  | zero => cases h; exact ⟨_, rfl⟩
  | succ q ih =>
    obtain ⟨rs1, outs1, h1, h2⟩ := playR_succ.1 h
    obtain ⟨i1, i2⟩ := playR_inv h1
    have hsub : ∀ r, rs = rs1 ++ [r] → ∃ outs', playR agg (reactTo n msg os') σ q = .ok (rs1, outs') := by
      rintro r rfl
      refine ih h1 fun B hB => hb B ?_
      rw [batchesIn_append]
      exact List.mem_append_left _ hB
    have hkeys : ∀ {outs'}, playR agg (reactTo n msg os') σ q = .ok (rs1, outs') →
        outs'.map Prod.fst = outs1.map Prod.fst := by
      intro outs' h'
      rw [i1, (playR_inv h').1]
      simp [Function.comp_def]
    rcases h2 with ⟨k, m, hs, hk, e⟩ | ⟨k, m, o, hs, hk, ho, e⟩ | ⟨k, m, hs, hk, ho, e⟩ | ⟨ks, a, hs, h3, e⟩ <;>
      cases e <;> obtain ⟨outs', h'⟩ := hsub _ rfl
    · exact ⟨outs', playR_succ.2 ⟨rs1, outs', h', .inl ⟨k, m, hs, by rwa [hkeys h'], rfl⟩⟩⟩
    · refine ⟨_, playR_succ.2 ⟨rs1, outs', h', .inr (.inl ⟨k, m, os' k, hs, by rwa [hkeys h'], ?_, rfl⟩)⟩⟩
      unfold reactTo at ho ⊢
      split at ho
      · next hc => rw [if_pos hc]
      · cases ho
    · refine ⟨_, playR_succ.2 ⟨rs1, outs', h', .inr (.inr (.inl ⟨k, m, hs, by rwa [hkeys h'], ?_, rfl⟩))⟩⟩
      unfold reactTo at ho ⊢
      split at ho
      · cases ho
      · next hc => rw [if_neg hc]
    · refine ⟨_, playR_succ.2 ⟨rs1, outs', h', .inr (.inr (.inr ⟨ks, a, hs, ?_, rfl⟩))⟩⟩
      rw [(playR_inv h').1, filter_outs]
      rw [i1, filter_outs] at h3
      refine hb _ ?_ (fun k hk => i2 k (List.mem_of_mem_filter hk)) a h3
      rw [batchesIn_append, hs]
      simp

/-- The coalition always gets its replies if all the aggregate shares can be computed. -/
theorem playR_total {agg : List (List F) → Res (List F)} {n : ℕ} {msg : ℕ → Option Bytes} {os : ℕ → List F}
    (hagg : ∀ B : List ℕ, (∀ k ∈ B, k < n) → ∃ a, agg (B.map os) = .ok a)
    (σ : List (Reply F) → Move) (q : ℕ) :
    ∃ rs outs, playR agg (reactTo n msg os) σ q = .ok (rs, outs) := by
  induction q with
  | zero => exact ⟨_, _, rfl⟩
  | succ q ih =>
    obtain ⟨rs, outs, h⟩ := ih
    obtain ⟨i1, i2⟩ := playR_inv h
    have key : ∃ x, playR agg (reactTo n msg os) σ (q + 1) = .ok x := by
      rcases hs : σ rs with ⟨k, m⟩ | ks
      · by_cases hk : k ∈ outs.map Prod.fst
        · exact ⟨_, playR_succ.2 ⟨rs, outs, h, .inl ⟨k, m, hs, hk, rfl⟩⟩⟩
        · rcases ho : reactTo n msg os k m with _ | o
          · exact ⟨_, playR_succ.2 ⟨rs, outs, h, .inr (.inr (.inl ⟨k, m, hs, hk, ho, rfl⟩))⟩⟩
          · exact ⟨_, playR_succ.2 ⟨rs, outs, h, .inr (.inl ⟨k, m, o, hs, hk, ho, rfl⟩)⟩⟩
      · obtain ⟨a, ha⟩ := hagg ((acceptedIn σ rs).filter (· ∈ ks)) fun k hk => i2 k (List.mem_of_mem_filter hk)
        refine ⟨_, playR_succ.2 ⟨rs, outs, h, .inr (.inr (.inr ⟨ks, a, hs, ?_, rfl⟩))⟩⟩
        rw [i1, filter_outs, ha]
    obtain ⟨⟨rs', outs'⟩, h'⟩ := key
    exact ⟨rs', outs', h'⟩

theorem playR_length {agg : List (List F) → Res (List F)} {r : ℕ → Option Bytes → Option (List F)}
    {σ : List (Reply F) → Move} {q : ℕ} {rs : List (Reply F)} {outs : List (ℕ × List F)}
    (h : playR agg r σ q = .ok (rs, outs)) : rs.length = q := by
  induction q generalizing rs outs with
  | zero => cases h; rfl
  | succ q ih =>
    obtain ⟨rs', outs', h1, h2⟩ := playR_succ.1 h
    have := ih h1
    rcases h2 with ⟨k, m, hs, hk, e⟩ | ⟨k, m, o, hs, hk, ho, e⟩ | ⟨k, m, hs, hk, ho, e⟩ | ⟨ks, a, hs, h3, e⟩ <;>
      cases e <;> simpa using this

namespace Prio3
variable {prims : Prims} {fuel : ℕ}

/-- The honest Aggregator's seed is the one in the verifier message. -/
theorem World.seed_eq {X : Xof} {P : Prio3 X F Meas Agg} {vk ctx nonce rand : Bytes} {a : List F} {t : Spec.Transcript F}
    {ms ps : ℕ → List F} {bl : ℕ → Option Bytes} {prs jrs qrs : List F} {π os w : ℕ → List F}
    {seed : Option Bytes} {part : ℕ → Option Bytes}
    (W0 : World P vk ctx nonce rand a t ms ps bl prs jrs qrs π os w seed part) : seed = t.message := by
  have hm := W0.msg
  have hl := sharesToMessage_lengths hm
  rw [W0.vshares] at hm hl
  have hw : ∀ j < P.shares, (w j).length = P.flp.verifierLen * P.proofs := fun j hj =>
    hl _ (List.mem_iff_getElem?.2 ⟨j, tab_getElem? hj⟩)
  rcases W0.joint with ⟨h0, -, h1, -, -⟩ | ⟨h0, parts, s, -, h1, h2, h3, -⟩
  · rw [sharesToMessage_eq (pb := fun _ => []) hw fun hc => absurd hc (by omega)] at hm
    obtain ⟨_, -, hm⟩ := Except.bind_eq_ok.1 hm
    rw [if_neg (by omega)] at hm
    rw [h1, ← Except.ok.inj hm]
  · rw [sharesToMessage_eq hw fun _ => h2] at hm
    obtain ⟨_, -, hm⟩ := Except.bind_eq_ok.1 hm
    rw [if_pos h0, h3] at hm
    have := Except.ok.inj hm
    rw [h1, ← this]

theorem react_eq {X : Xof} {P : Prio3 X F Meas Agg} {ctx : Bytes} {h n : ℕ} {t : ℕ → Transcript F}
    {msg : ℕ → Option Bytes} {os : ℕ → List F} (hst : ∀ k < n, (t k).states[h]? = some (os k, msg k)) :
    react P ctx h (tab n t) = reactTo n msg os := by
  funext k m
  unfold react reactTo
  by_cases hk : k < n
  · rw [getI_of_some (tab_getElem? hk)]
    simp only [Except.ok_bind']
    rw [getI_of_some (hst k hk)]
    simp only [Except.ok_bind']
    show (match (verifyNext ctx (os k, msg k) m : Res (Next (List F × Option Bytes) (List F × Option Bytes) (List F))) with
      | .ok (.out o) => some o
      | _ => none) = _
    unfold verifyNext
    dsimp only
    by_cases hm : m = msg k
    · rw [raiseIf_of_not (by simpa using hm), if_pos ⟨hk, hm⟩]
      rfl
    · rw [if_neg fun hc => hm hc.2]
      simp [raiseIf, hm]
  · rw [if_neg fun hc => hk hc.1]
    rw [getI_err (by simpa using hk)]
    rfl

variable {P : Prio3 (XofTurboShake128 prims fuel) F Meas Agg} {ctx : Bytes} {h n : ℕ} {rs : ℕ → Coins}

theorem attackView_ok {vk : Bytes} {m : ℕ → Meas} {T : Bytes → ℕ → UInt8} {σ : Strategy F} {q : ℕ}
    (W : P.WF) (hctx : ctx.length + 8 < 2 ^ 16) (hh : h < P.shares) {a : ℕ → List F}
    (he : ∀ k < n, P.flp.encode (m k) = .ok (a k)) (ha : ∀ k < n, (a k).length = P.flp.measLen)
    {v : List (Transcript F) × List (Reply F)} :
    Spec.attackView (runWith P T) vk ctx h n m rs σ q = .ok v ↔
      ∃ os vs, Sees True P vk ctx h n m rs vs os T ∧ v.1 = tab n vs ∧
        ∃ outs, playR (Spec.aggregate P.vdaf ()) (reactTo n (fun k => (vs k).message) os) (σ v.1) q = .ok (v.2, outs) := by
  obtain ⟨v1, v2⟩ := v
  unfold Spec.attackView
  have hview : ∀ {t vs : ℕ → Transcript F}, (∀ k < n, (t k).view h = vs k) →
      (tab n t).map (Transcript.view h) = tab n vs := by
    intro t vs hv
    unfold tab
    rw [List.map_map]
    exact List.map_congr_left fun k hk => hv k (List.mem_range.1 hk)
  have hagg : Spec.aggregate (runWith P T).vdaf () = Spec.aggregate P.vdaf () :=
    funext fun outs => aggregate_runWith T outs
  constructor
  · intro hv
    obtain ⟨ts, h1, hv⟩ := Except.bind_eq_ok.1 hv
    dsimp only at hv
    obtain ⟨⟨rs', outs⟩, h2, hv⟩ := Except.bind_eq_ok.1 hv
    cases hv
    have : Inhabited (Transcript F) := ⟨⟨none, [], [], [], none⟩⟩
    obtain ⟨t, rfl, ht⟩ := mapRes_range_ok h1
    have hst : ∀ k, ∃ o, k < n → (t k).states[h]? = some (o, (t k).message) := by
      intro k
      by_cases hk : k < n
      · obtain ⟨_, _, _, _, _, _, _, os, _, seed, _, W0⟩ := world_of (W.runWith T) hctx (he k hk) (ha k hk) (ht k hk)
        refine ⟨os h, fun _ => ?_⟩
        rw [W0.states, ← W0.seed_eq]
        exact tab_getElem? hh
      · exact ⟨[], fun hc => absurd hc hk⟩
    choose os hos using hst
    refine ⟨os, fun k => (t k).view h, fun k hk => ⟨t k, ht k hk, rfl, _, hos k hk, fun _ => rfl⟩, hview fun _ _ => rfl,
      outs, ?_⟩
    rw [play_eq, react_eq (msg := fun k => (t k).message) hos, hagg] at h2
    exact h2
  · rintro ⟨os, vs, hS, rfl, outs, h3⟩
    have : ∀ k, ∃ t, k < n → Spec.transcript (runWith P T) vk ctx (m k) (rs k).nonce (rs k).rand = .ok t ∧
        t.view h = vs k ∧ t.states[h]? = some (os k, (vs k).message) := fun k => by
      by_cases hk : k < n
      · obtain ⟨t, h1, h2, seed, h3, h4⟩ := hS k hk
        exact ⟨t, fun _ => ⟨h1, h2, by rw [h3, h4 trivial, ← h2]; rfl⟩⟩
      · exact ⟨⟨none, [], [], [], none⟩, fun hc => absurd hc hk⟩
    choose t ht using this
    rw [mapRes_range_tab fun k hk => (ht k hk).1]
    simp only [Except.ok_bind']
    rw [hview fun k hk => (ht k hk).2.1, play_eq, react_eq fun k hk => (ht k hk).2.2, hagg, h3]
    rfl

end Prio3
end Vdaf
