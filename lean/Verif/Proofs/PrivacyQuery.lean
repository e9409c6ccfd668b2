import Verif.Spec.PrivacyOracle
import Verif.Proofs.PrivacyActive

/-! A coalition that evaluates the oracle, without those evaluations. -/

set_option linter.unusedSectionVars false

namespace Vdaf
open Finset Spec

variable {F : Type} [NttField F] {Meas Agg : Type}

/-- `Spec.queryPlay` with the reactions of the honest Aggregator and the answers of the oracle given. -/
def playQ (agg : List (List F) → Res (List F)) (r : ℕ → Option Bytes → Option (List F)) (ans : Bytes → ℕ → UInt8)
    (σ : List (QueryReply F) → QueryMove) : ℕ → Res (List (QueryReply F) × List (ℕ × List F))
  | 0 => return ([], [])
  | q + 1 => do
    let (replies, outs) ← playQ agg r ans σ q
    match σ replies with
    | .query m => return (replies ++ [.output (ans m)], outs)
    | .attack (.send k message) =>
      if k ∈ outs.map Prod.fst then return (replies ++ [.reply (.verdict false)], outs)
      else match r k message with
        | some o => return (replies ++ [.reply (.verdict true)], outs ++ [(k, o)])
        | none => return (replies ++ [.reply (.verdict false)], outs)
    | .attack (.collect ks) => do
      let a ← agg ((outs.filter fun x => x.1 ∈ ks).map Prod.snd)
      return (replies ++ [.reply (.share a)], outs)

theorem queryPlay_eq {prims : Prims} {fuel : ℕ} (P : Prio3 (XofTurboShake128 prims fuel) F Meas Agg) (ctx : Bytes) (h : ℕ)
    (ts : List (Transcript F)) (σ : List (QueryReply F) → QueryMove) (q : ℕ) :
    queryPlay P ctx h ts σ q =
      playQ (Spec.aggregate P.vdaf ()) (react P ctx h ts) (fun m => prims.turboShake m 1) σ q := by
  induction q with
  | zero => rfl
  | succ q ih => unfold queryPlay playQ; rw [ih]; rfl

/-- The replies with the answers of the oracle filled in. -/
def fullReplies (ans : Bytes → ℕ → UInt8) (σ : List (QueryReply F) → QueryMove) (rs : List (Reply F)) :
    List (QueryReply F) :=
  rs.foldl (fun acc r => acc ++ [match σ acc with
    | .query m => .output (ans m)
    | .attack _ => .reply r]) []

/-- The strategy without evaluations of the oracle: an empty batch is collected instead. -/
def silent (ans : Bytes → ℕ → UInt8) (σ : List (QueryReply F) → QueryMove) (rs : List (Reply F)) : Move :=
  match σ (fullReplies ans σ rs) with
  | .query _ => .collect []
  | .attack m => m

section
variable {ans : Bytes → ℕ → UInt8} {σ : List (QueryReply F) → QueryMove}

theorem fullReplies_append (rs : List (Reply F)) (r : Reply F) :
    fullReplies ans σ (rs ++ [r]) = fullReplies ans σ rs ++ [match σ (fullReplies ans σ rs) with
      | .query m => .output (ans m)
      | .attack _ => .reply r] := by
  unfold fullReplies
  rw [List.foldl_append]
  rfl

theorem acceptedBy_append (rs : List (QueryReply F)) (r : QueryReply F) :
    acceptedBy σ (rs ++ [r]) = acceptedBy σ rs ++ (match σ rs, r with
      | .attack (.send k _), .reply (.verdict true) => [k]
      | _, _ => []) := by
  unfold acceptedBy
  rw [List.length_append, List.length_singleton, List.range_succ, List.filterMap_append]
  congr 1
  · refine List.filterMap_congr fun i hi => ?_
    have hi := List.mem_range.1 hi
    rw [List.take_append_of_le_length hi.le, List.getElem?_append_left hi]
  · rw [List.filterMap_cons, List.filterMap_nil]
    rw [List.take_append_of_le_length le_rfl, List.take_length, List.getElem?_append_right le_rfl]
    simp only [Nat.sub_self, List.getElem?_cons_zero]
    rcases σ rs with m | ⟨k, m⟩ | ks <;> rcases r with s | ⟨_ | _⟩ | a <;> rfl

theorem batchesBy_append (rs : List (QueryReply F)) (r : QueryReply F) :
    batchesBy σ (rs ++ [r]) = batchesBy σ rs ++ (match σ rs with
      | .attack (.collect ks) => [(acceptedBy σ rs).filter (· ∈ ks)]
      | _ => []) := by
  unfold batchesBy
  rw [List.length_append, List.length_singleton, List.range_succ, List.filterMap_append]
  congr 1
  · refine List.filterMap_congr fun i hi => ?_
    have hi := List.mem_range.1 hi
    rw [List.take_append_of_le_length hi.le]
  · rw [List.filterMap_cons, List.filterMap_nil]
    rw [List.take_append_of_le_length le_rfl, List.take_length]
    rcases σ rs with m | ⟨k, m⟩ | ks <;> rfl

theorem acceptedIn_silent (rs : List (Reply F)) :
    acceptedIn (silent ans σ) rs = acceptedBy σ (fullReplies ans σ rs) := by
  induction rs using List.reverseRecOn with
  | nil => rfl
  | append_singleton rs r ih =>
    rw [acceptedIn_append, fullReplies_append, acceptedBy_append, ih]
    congr 1
    unfold silent
    rcases σ (fullReplies ans σ rs) with m | ⟨k, m⟩ | ks <;> rcases r with ⟨_ | _⟩ | a <;> rfl

theorem batchesIn_silent (rs : List (Reply F)) {B : List ℕ} (h : B ∈ batchesIn (silent ans σ) rs) :
    B = [] ∨ B ∈ batchesBy σ (fullReplies ans σ rs) := by
  induction rs using List.reverseRecOn with
  | nil => cases h
  | append_singleton rs r ih =>
    rw [batchesIn_append, List.mem_append] at h
    rw [fullReplies_append, batchesBy_append, List.mem_append]
    rcases h with h | h
    · exact (ih h).imp_right .inl
    · rw [acceptedIn_silent] at h
      unfold silent at h
      rcases hs : σ (fullReplies ans σ rs) with m | ⟨k, m⟩ | ks <;> rw [hs] at h
      · left; simpa using h
      · cases h
      · exact .inr (.inr h)

/-- The run, from the run without evaluations of the oracle. -/
theorem playQ_silent {agg : List (List F) → Res (List F)} {r : ℕ → Option Bytes → Option (List F)} {z : List F}
    (hz : agg [] = .ok z) (q : ℕ) :
    playQ agg r ans σ q = (do
      let (rs, outs) ← playR agg r (silent ans σ) q
      return (fullReplies ans σ rs, outs)) := by
  induction q with
  | zero => rfl
  | succ q ih =>
    unfold playQ playR
    rw [ih]
    rcases playR agg r (silent ans σ) q with e | ⟨rs, outs⟩
    · rfl
    · simp only [Except.ok_bind', Except.pure_eq', silent]
      have hf := fullReplies_append (ans := ans) (σ := σ) rs
      rcases hs : σ (fullReplies ans σ rs) with m | ⟨k, m⟩ | ks <;> simp only [hs] at hf ⊢
      · simp only [List.not_mem_nil, decide_false, List.filter_false, List.map_nil]
        rw [hz]
        simp only [Except.ok_bind', hf]
      · by_cases hk : k ∈ outs.map Prod.fst
        · simp only [if_pos hk, Except.ok_bind', hf]
        · simp only [if_neg hk]
          rcases r k m with _ | o <;> simp only [Except.ok_bind', hf]
      · generalize agg (List.map Prod.snd (List.filter _ outs)) = y
        rcases y with e | a
        · rfl
        · simp only [Except.ok_bind', hf]

/-- The run is the same for other answers unless the coalition evaluates the oracle where they differ. -/
theorem playQ_congr {agg : List (List F) → Res (List F)} {r : ℕ → Option Bytes → Option (List F)}
    {ans' : Bytes → ℕ → UInt8} {D : Set Bytes} (hD : ∀ m ∉ D, ans m = ans' m) {q : ℕ}
    (hno : ∀ t < q, ∀ rs outs, playQ agg r ans σ t = .ok (rs, outs) → ∀ m ∈ D, σ rs ≠ .query m) :
    playQ agg r ans σ q = playQ agg r ans' σ q := by
  induction q with
  | zero => rfl
  | succ q ih =>
    have ih := ih fun t ht => hno t (by omega)
    have hno := hno q (by omega)
    unfold playQ
    rw [← ih]
    rcases hp : playQ agg r ans σ q with e | ⟨rs, outs⟩
    · rfl
    · simp only [Except.ok_bind']
      rcases hs : σ rs with m | ⟨k, m⟩ | ks <;> simp only
      rw [hD m fun hm => hno rs outs hp m hm hs]

end
end Vdaf
