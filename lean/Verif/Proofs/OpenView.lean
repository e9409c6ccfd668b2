import Verif.Proofs.OpenSim
import Verif.Proofs.PingPongSim

/-! What attackers see that submit reports of their own, from what attackers see that do not. -/

namespace Vdaf.Open
open Spec PingPong

variable {Meas AggParam PubShare InShare OutShare AggShare AggRes VState VShare VMsg : Type}

theorem openPlay_game (W : VdafImpl Meas AggParam PubShare InShare OutShare AggShare AggRes VState VShare VMsg)
    (prims : Prims) (isLeader : Bool) (verifyKey ctx : Bytes) (reports : List WireReport)
    (σ : List (PeerReply AggShare) → OpenMove) (q : ℕ) :
    openPlay W prims isLeader verifyKey ctx reports σ q =
      Game.play (openRespond W prims isLeader verifyKey ctx reports) ⟨.empty, [], .empty⟩ σ q := by
  induction q with
  | zero => rfl
  | succ q ih => unfold openPlay Game.play; rw [ih]

variable (V : Prims → VdafImpl Meas AggParam PubShare InShare OutShare AggShare AggRes VState VShare VMsg)
  (p0 : Prims) (A : Set Prims) (c : ℕ) (isLeader : Bool) (verifyKey ctx : Bytes) (σ : OpenStrategy AggShare)

/-- The attackers that do not submit reports -/
noncomputable def strategyOf : PeerStrategy AggShare := fun views => simulate V p0 A c isLeader verifyKey ctx (σ views)

/-- The views from which they get to a view in `E` -/
def openEvent (E : Set (List (Bytes × Bytes) × List (PeerReply AggShare))) :
    Set (List (Bytes × Bytes) × List (PeerReply AggShare)) :=
  {v | ∃ s, stateOf V p0 A c isLeader verifyKey ctx (σ v.1) v.2 = (some s, []) ∧ (v.1, s.replies) ∈ E ∧
    Named v.2 s.replies}

variable {V p0 A c isLeader verifyKey ctx σ} {p : Prims}

theorem openView_iff (hf : ∀ views, Feasible V A c isLeader verifyKey ctx (σ views)) (hp : p ∈ A)
    (hA : (V p).aggUpdate = (V p0).aggUpdate ∧ (V p).decodeAggParam = (V p0).decodeAggParam) (reports : List WireReport)
    (q : ℕ) (E : Set (List (Bytes × Bytes) × List (PeerReply AggShare))) :
    (∃ v ∈ E, openView (V p) p isLeader verifyKey ctx reports σ q = .ok v) ↔
      ∃ v ∈ openEvent V p0 A c isLeader verifyKey ctx σ E,
        peerView (V p) p isLeader verifyKey ctx reports (strategyOf V p0 A c isLeader verifyKey ctx σ) ((c + 1) * q) =
          .ok v := by
  unfold openView peerView
  simp only [openPlay_game, Prio3.peerPlay_game]
  rcases simulation (reports := reports) (hf (reports.map (WireReport.view isLeader))) hp hA q with
    ⟨e, h1, ⟨e', h2⟩ | ⟨b, mem, h2, h3⟩⟩ | ⟨rs, mem, b, h1, h2, h3, h4⟩
  · rw [h1, show Game.play _ _ (strategyOf V p0 A c isLeader verifyKey ctx σ _) _ = _ from h2]
    constructor <;> rintro ⟨v, -, h⟩ <;> cases h
  · rw [h1, show Game.play _ _ (strategyOf V p0 A c isLeader verifyKey ctx σ _) _ = _ from h2]
    constructor
    · rintro ⟨v, -, h⟩; cases h
    · rintro ⟨v, ⟨s, hs, -⟩, h⟩
      cases h
      rw [show stateOf V p0 A c isLeader verifyKey ctx _ b = _ from h3] at hs
      cases hs
  · rw [h1, show Game.play _ _ (strategyOf V p0 A c isLeader verifyKey ctx σ _) _ = _ from h2]
    constructor
    · rintro ⟨v, hv, h⟩
      cases h
      exact ⟨_, ⟨_, h3, hv, h4⟩, rfl⟩
    · rintro ⟨v, ⟨s, hs, hv, -⟩, h⟩
      cases h
      rw [show stateOf V p0 A c isLeader verifyKey ctx _ b = _ from h3] at hs
      cases hs
      exact ⟨_, hv, rfl⟩

end Vdaf.Open
