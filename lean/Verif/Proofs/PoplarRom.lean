import Verif.Proofs.PoplarPlay
import Verif.Proofs.PoplarHits

/-! The experiment with fresh bytes: what the attackers see has the same distribution for two families of measurements. -/

set_option linter.unusedSectionVars false

namespace Vdaf.PO
open Spec (poplarIdpf levelKind Askable TreeReply TreeMove Memory TreeView treePlay SameCounts AskAtMost treeWorlds treeProbability treeView coinsOf
  oracles ciphers withOracles)

section
variable (e : Env) (P : Prims) (ms ms' : ℕ → List Bool) (x : Fin e.n → Bytes)

def vrand (k ℓ n : ℕ) (κ : Kind) : List (Fk κ) :=
  match (⟨poplarIdpf e.bits⟩ : Poplar1).verifyRand P e.fuel e.verifyKey e.ctx (e.nonces k) ℓ n with
  | .ok rs => castVec κ ⟨levelKind e.bits ℓ, rs⟩
  | .error _ => []

/-- What the first verifier share depends on -/
def onAt (L : List TreeReply) (k ℓ : ℕ) (κ : Kind) : Fk κ :=
  match asked L k ℓ with
  | none => 0
  | some prefixes => onSum (ms k) prefixes (vrand e P k ℓ prefixes.length κ)

def pubOf (v : TreeView) (k : ℕ) : List CorrectionWord := match v.1[k]? with | some r => r.1 | none => []

noncomputable def Env.move1 (v : TreeView) (k : ℕ) (f : Fresh) : Fresh :=
  tau e.bits e.fuel e.b (e.src P k) (keyOf (e.randOf x k) e.b) (pubOf v k) (ms k) (ms' k) (onAt e P ms v.2 k) (onAt e P ms' v.2 k) f

noncomputable def Env.moveAll (v : TreeView) (σ : e.Idx → UInt8) : e.Idx → UInt8 :=
  fun i => (e.move1 P ms ms' x v i.1 (e.fresh σ i.1)).at i.2.1 i.2.2

end

section
variable {e : Env} (he : e.Ok) {P : Prims} {ms ms' : ℕ → List Bool} {x : Fin e.n → Bytes} (hx : x ∈ e.rands)
  (hm' : ∀ k < e.n, ms' k ∈ e.cands k)

theorem fresh_ext {f g : Fresh} (bits : ℕ) (h : ∀ l : Lab bits, f.at l = g.at l) (h2 : ∀ ℓ u, ¬ (ℓ < bits ∧ u < 2) → f.node ℓ u = g.node ℓ u) : f = g := by
  have h0 := h (.inl 0)
  have h1 := h (.inl 1)
  have h3 := h (.inl 2)
  have h4 : f.node = g.node := by
    funext ℓ u
    by_cases hh : ℓ < bits ∧ u < 2
    · exact h (.inr (⟨ℓ, hh.1⟩, ⟨u, hh.2⟩))
    · exact h2 ℓ u hh
  cases f; cases g
  simp only [Fresh.at] at h0 h1 h3 h4
  subst h0 h1 h3 h4
  rfl

include he hx hm' in
theorem Env.fresh_move {v : TreeView} {σ : e.Idx → UInt8} {k : ℕ} (hk : k < e.n) {r : Rep}
    (h : e.irep P k (ms k) (e.randOf x k) (e.fresh σ k) = .ok r) (hv : pubOf v k = r.s.pub) :
    e.fresh (e.moveAll P ms ms' x v σ) k = e.move1 P ms ms' x v k (e.fresh σ k) := by
  obtain ⟨-, -, -, -, hp, hf, hpw, -, -, -, -, p2, hg⟩ := e.irep_facts he (e.randOf_length hx hk) (he.cands k hk) h
  rw [← hv] at hp hpw
  have hz := zNew_sized (X := onAt e P ms v.2 k) (X' := onAt e P ms' v.2 k) (alpha := ms k) hg.sized hp (hpw (ms' k) (hm' k hk))
  refine fresh_ext e.bits ?_ ?_
  · intro l
    funext i
    rw [Env.fresh_at]
    unfold Env.strm
    by_cases hi : i < 16 * e.B
    · rw [dif_pos ⟨hk, hi⟩]
      rfl
    · rw [dif_neg (by tauto)]
      have h1 := hg.beyond hz he.N l (i := i) (by omega)
      have h2 : (e.fresh σ k).at l i = 0 := by
        rw [Env.fresh_at]
        unfold Env.strm
        rw [dif_neg (by tauto)]
      exact (h1.trans h2).symm
  · intro ℓ u hh
    have h1 : (e.move1 P ms ms' x v k (e.fresh σ k)).node ℓ u = (e.fresh σ k).node ℓ u := by
      unfold Env.move1 tau Re
      dsimp only
      split
      · rename_i hl
        rw [if_neg (by omega), if_neg (by omega)]
      · rfl
    rw [h1]
    funext i
    unfold Env.fresh
    dsimp only
    rw [dif_neg hh, dif_neg hh]

/-- The reports of the experiment -/
theorem Env.gview_ok {rep : ℕ → Res Rep} {v : TreeView} (h : e.gview P rep = .ok v) :
    ∃ ss mem, mapRes rep (List.range e.n) = .ok ss ∧ e.play P ss e.q = .ok (v.2, mem) ∧ v.1 = ss.map (Rep.item e.b) := by
  unfold Env.gview at h
  obtain ⟨ss, h1, h⟩ := Except.bind_eq_ok.1 h
  obtain ⟨⟨r, mem⟩, h2, h⟩ := Except.bind_eq_ok.1 h
  cases h
  exact ⟨ss, mem, h1, h2, rfl⟩

theorem Env.gview_pub {rep : ℕ → Res Rep} {v : TreeView} (h : e.gview P rep = .ok v) {k : ℕ} (hk : k < e.n) :
    ∃ r, rep k = .ok r ∧ pubOf v k = r.s.pub := by
  obtain ⟨ss, mem, h1, -, h3⟩ := Env.gview_ok h
  obtain ⟨r, h4, h5⟩ := (mapRes_range_iff.1 h1).2 k hk
  refine ⟨r, h4, ?_⟩
  unfold pubOf
  rw [h3, List.getElem?_map, h5]
  rfl

include he in
theorem Env.onAt_eq {L : List TreeReply} {k : ℕ} {param : Poplar1AggParam} (ha : asked L k param.1 = some param.2) (a : ℕ → List Bool)
    {rs : List (Fk (levelKind e.bits param.1))}
    (h : (⟨poplarIdpf e.bits⟩ : Poplar1).verifyRand P e.fuel e.verifyKey e.ctx (e.nonces k) param.1 param.2.length = .ok rs) :
    onAt e P a L k param.1 (levelKind e.bits param.1) = onSum (a k) param.2 rs := by
  unfold onAt vrand
  rw [ha]
  dsimp only
  rw [h]
  dsimp only
  rw [castVec_self]

include he hx hm' in
/-- The same view, from the other measurements -/
theorem Env.view_move {v : TreeView} {σ : e.Idx → UInt8}
    (h : e.gview P (fun k => e.irep P k (ms k) (e.randOf x k) (e.fresh σ k)) = .ok v) (hb : SameCounts ms ms' v) :
    e.gview P (fun k => e.irep P k (ms' k) (e.randOf x k) (e.fresh (e.moveAll P ms ms' x v σ) k)) = .ok v := by
  obtain ⟨ss, mem, h1, h2, h3⟩ := Env.gview_ok h
  obtain ⟨hl, hss⟩ := mapRes_range_iff.1 h1
  have hex : ∀ k, ∃ r', k < e.n → ∃ r, e.irep P k (ms k) (e.randOf x k) (e.fresh σ k) = .ok r ∧ ss[k]? = some r ∧
      e.irep P k (ms' k) (e.randOf x k) (e.fresh (e.moveAll P ms ms' x v σ) k) = .ok r' ∧
      r'.s.pub = r.s.pub ∧ r'.s.corr = r.s.corr ∧ r'.alpha = ms' k ∧ r'.nonce = r.nonce ∧ r'.key = r.key ∧ r'.seed = r.seed ∧
      ∀ ℓ < e.bits, r'.s.V.k ℓ (levelKind e.bits ℓ) = (shiftScalars (onAt e P ms v.2 k ℓ _) (onAt e P ms' v.2 k ℓ _)
          (r.s.V.k ℓ _, r.s.V.tri (1 - e.b) ℓ _, (0, 0))).1 ∧
        r'.s.V.tri (1 - e.b) ℓ (levelKind e.bits ℓ) =
          (shiftScalars (onAt e P ms v.2 k ℓ _) (onAt e P ms' v.2 k ℓ _) (r.s.V.k ℓ _, r.s.V.tri (1 - e.b) ℓ _, (0, 0))).2.1 := by
    intro k
    by_cases hk : k < e.n
    · obtain ⟨r, h4, h5⟩ := Env.gview_pub h hk
      obtain ⟨r2, h4', h6⟩ := hss k hk
      rw [h4] at h4'
      cases h4'
      obtain ⟨r', h7⟩ := e.irep_tau he (X := onAt e P ms v.2 k) (X' := onAt e P ms' v.2 k) (e.randOf_length hx hk) (he.cands k hk) (hm' k hk) h4
      rw [← h5] at h7
      refine ⟨r', fun _ => ⟨r, h4, h6, ?_⟩⟩
      rw [e.fresh_move he hx hm' hk h4 h5]
      rw [h5] at h7
      unfold Env.move1
      rw [h5]
      exact h7
    · exact ⟨⟨⟨[], ⟨[], [], fun _ => [], fun _ => []⟩, ⟨[], [], none⟩⟩, [], [], [], []⟩, fun h => absurd h hk⟩
  choose r' hr' using hex
  obtain ⟨ss', hss'⟩ : ∃ ss', ss' = (List.range e.n).map r' := ⟨_, rfl⟩
  have get' : ∀ k < e.n, ss'[k]? = some (r' k) := by
    intro k hk
    rw [hss', List.getElem?_map, List.getElem?_range hk]
    rfl
  have m1 : mapRes (fun k => e.irep P k (ms' k) (e.randOf x k) (e.fresh (e.moveAll P ms ms' x v σ) k)) (List.range e.n) = .ok ss' := by
    refine mapRes_range_iff.2 ⟨by rw [hss']; simp, fun k hk => ?_⟩
    obtain ⟨r, -, -, h6, -⟩ := hr' k hk
    exact ⟨r' k, h6, get' k hk⟩
  have items : ss'.map (Rep.item e.b) = ss.map (Rep.item e.b) := by
    apply List.ext_getElem?
    intro k
    rw [List.getElem?_map, List.getElem?_map]
    by_cases hk : k < e.n
    · obtain ⟨r, -, h5, -, h7, h8, -, -, h9, h10, -⟩ := hr' k hk
      rw [get' k hk, h5]
      simp only [Option.map_some]
      unfold Rep.item Sh.share
      rw [h7, h8, h9, h10]
    · rw [List.getElem?_eq_none (by rw [hss']; simp; omega), List.getElem?_eq_none (by omega)]
  unfold Env.play at h2
  obtain ⟨mem', h4, -⟩ := play_alike (ms := ms) (ms' := ms') (start' := e.start P ss') (L := v.2) (by
    intro k hk param hp ha st share hst
    obtain ⟨r, h4, h5, -, h7, h8, h11, h12, h9, h10, h13⟩ := hr' k hk
    obtain ⟨f1, f2, -⟩ := e.irep_facts he (e.randOf_length hx hk) (he.cands k hk) h4
    unfold Env.start at hst ⊢
    rw [getI_of_some h5] at hst
    rw [getI_of_some (get' k hk)]
    simp only [Except.ok_bind'] at hst ⊢
    rw [h12, h11, h9]
    rw [f1] at hst
    rw [f2] at hst ⊢
    exact hinit_alike hp h7 h8 (fun rs hrs => ⟨e.onAt_eq he ha ms hrs, e.onAt_eq he ha ms' hrs⟩) (fun rs hrs => by
      rw [verifyRand_sampS he.ctx he.key hp.2.1] at hrs
      obtain ⟨q, h14, h15⟩ := Except.bind_eq_ok.1 hrs
      cases h15
      exact (sampS_ok h14).1) (h13 _ hp.1).1 (h13 _ hp.1).2 hst) hb h2 (List.prefix_refl _)
  unfold Env.gview
  rw [m1]
  simp only [Except.ok_bind']
  unfold Env.play
  rw [items, h4]
  simp only [Except.ok_bind']
  rw [← h3]

include he hx hm' in
theorem Env.move_inj {v : TreeView} {σ1 σ2 : e.Idx → UInt8}
    (h1 : e.gview P (fun k => e.irep P k (ms k) (e.randOf x k) (e.fresh σ1 k)) = .ok v)
    (h2 : e.gview P (fun k => e.irep P k (ms k) (e.randOf x k) (e.fresh σ2 k)) = .ok v)
    (h : e.moveAll P ms ms' x v σ1 = e.moveAll P ms ms' x v σ2) : σ1 = σ2 := by
  funext ⟨k, l, i⟩
  obtain ⟨r1, a1, b1⟩ := Env.gview_pub h1 k.2
  obtain ⟨r2, a2, b2⟩ := Env.gview_pub h2 k.2
  have c1 := e.fresh_move he hx hm' k.2 a1 b1
  have c2 := e.fresh_move he hx hm' k.2 a2 b2
  rw [h, c2] at c1
  obtain ⟨-, -, -, -, hp, hf, hpw, -, -, -, -, p2, hg⟩ := e.irep_facts he (e.randOf_length hx k.2) (he.cands k k.2) a1
  obtain ⟨-, -, -, -, -, hf', -, -, -, -, -, p2', hg'⟩ := e.irep_facts he (e.randOf_length hx k.2) (he.cands k k.2) a2
  rw [← b1] at hp hf hpw
  rw [← b2] at hf'
  have := tau_inj he.bits hg hg' hp (hpw _ (hm' k k.2)) hf hf' c1.symm
  have h3 : (e.fresh σ1 k).at l i = (e.fresh σ2 k).at l i := by rw [this]
  rw [Env.fresh_at, Env.fresh_at] at h3
  unfold Env.strm at h3
  rw [dif_pos ⟨k.2, i.2⟩, dif_pos ⟨k.2, i.2⟩] at h3
  exact h3

end

/-- The number of worlds in which the view is in `E` -/
theorem Env.ideal_le {e : Env} (he : e.Ok) {ms ms' : ℕ → List Bool} (hm' : ∀ k < e.n, ms' k ∈ e.cands k) {V : Set Pt} (hV : V.Finite)
    (O0 : Pt → UInt8) {E : Set TreeView} (hE : ∀ v ∈ E, SameCounts ms ms' v) :
    {w : (Fin e.n → Bytes) × (Pt → UInt8) × (e.Idx → UInt8) | w.1 ∈ e.rands ∧ w.2.1 ∈ Varies V O0 ∧
      e.ideal ms w.1 w.2.1 w.2.2 ∈ Except.ok '' E}.ncard ≤
    {w : (Fin e.n → Bytes) × (Pt → UInt8) × (e.Idx → UInt8) | w.1 ∈ e.rands ∧ w.2.1 ∈ Varies V O0 ∧
      e.ideal ms' w.1 w.2.1 w.2.2 ∈ Except.ok '' E}.ncard := by
  have hfin : (e.rands ×ˢ Varies V O0 ×ˢ (Set.univ : Set (e.Idx → UInt8))).Finite :=
    e.rands_finite.prod ((varies_finite hV O0).prod Set.finite_univ)
  let vw : (Fin e.n → Bytes) × (Pt → UInt8) × (e.Idx → UInt8) → TreeView := fun w =>
    match e.ideal ms w.1 w.2.1 w.2.2 with | .ok v => v | .error _ => ([], [])
  have hvw : ∀ w v, e.ideal ms w.1 w.2.1 w.2.2 = .ok v → vw w = v := by
    intro w v h
    show (match e.ideal ms w.1 w.2.1 w.2.2 with | .ok v => v | .error _ => ([], [])) = v
    rw [h]
  have main : ∀ w v, w.1 ∈ e.rands → v ∈ E → e.ideal ms w.1 w.2.1 w.2.2 = .ok v →
      e.ideal ms' w.1 w.2.1 (e.moveAll (primsO e.prims w.2.1) ms ms' w.1 (vw w) w.2.2) = .ok v := by
    intro w v hx hv h
    rw [hvw w v h]
    exact e.view_move he hx hm' h (hE v hv)
  refine Set.ncard_le_ncard_of_injOn (fun w => (w.1, w.2.1, e.moveAll (primsO e.prims w.2.1) ms ms' w.1 (vw w) w.2.2)) ?_ ?_
    (hfin.subset fun w hw => ⟨hw.1, hw.2.1, trivial⟩)
  · rintro w ⟨h1, h2, v, hv, h3⟩
    exact ⟨h1, h2, v, hv, (main w v h1 hv h3.symm).symm⟩
  · rintro ⟨x1, O1, σ1⟩ ⟨h1, h2, v, hv, h3⟩ ⟨x2, O2, σ2⟩ ⟨k1, k2, v', hv', k3⟩ h
    dsimp only at h1 h2 h3 k1 k2 k3
    simp only [Prod.mk.injEq] at h
    obtain ⟨rfl, rfl, h⟩ := h
    have m1 := main (x1, O1, σ1) v h1 hv h3.symm
    have m2 := main (x1, O1, σ2) v' k1 hv' k3.symm
    dsimp only at m1 m2
    rw [h] at m1
    rw [m1] at m2
    cases m2
    rw [hvw (x1, O1, σ1) v h3.symm, hvw (x1, O1, σ2) v k3.symm] at h
    have := e.move_inj he h1 hm' h3.symm k3.symm h
    rw [this]

/-! ### The worlds -/

def joinO (T : Bytes → ℕ → UInt8) (C : Bytes → Bytes → ℕ → UInt8) : Pt → UInt8
  | .inl (m, i) => T m i
  | .inr (k, x, i) => C k x i

/-- The oracles outside the bytes that vary -/
def baseO (prims : Prims) : Pt → UInt8 := joinO (fun m i => prims.turboShake m 1 i) fun _ _ _ => 0

theorem primsO_join (prims : Prims) (T : Bytes → ℕ → UInt8) (C : Bytes → Bytes → ℕ → UInt8) : primsO prims (joinO T C) = withOracles prims T C := rfl

theorem joinO_mem {e : Env} {S : Set Bytes} {T : Bytes → ℕ → UInt8} {C : Bytes → Bytes → ℕ → UInt8} :
    joinO T C ∈ Varies (e.space S) (baseO e.prims) ↔ T ∈ oracles e.prims S (16 * e.B) ∧ C ∈ ciphers := by
  unfold Varies oracles ciphers Env.space baseO
  simp only [Set.mem_ofPred_eq]
  constructor
  · intro h
    refine ⟨fun m i hne => ?_, fun k x i hne => ?_⟩
    · by_contra hc
      refine hne (h (.inl (m, i)) ?_)
      rintro (⟨m', hm, i', hi, hp⟩ | ⟨k, x, -, -, i', -, hp⟩)
      · cases hp; exact hc ⟨hm, hi⟩
      · cases hp
    · by_contra hc
      refine hne (h (.inr (k, x, i)) ?_)
      rintro (⟨m', hm, i', hi, hp⟩ | ⟨k', x', h1, h2, i', h3, hp⟩)
      · cases hp
      · cases hp; exact hc ⟨h1, h2, h3⟩
  · rintro ⟨h1, h2⟩ p hp
    rcases p with ⟨m, i⟩ | ⟨k, x, i⟩
    · by_contra hc
      obtain ⟨h3, h4⟩ := h1 m i hc
      exact hp (.inl ⟨m, h3, i, h4, rfl⟩)
    · by_contra hc
      obtain ⟨h3, h4, h5⟩ := h2 k x i hc
      exact hp (.inr ⟨k, x, h3, h4, i, h5, rfl⟩)

def joinW {X : Type} (w : X × (Bytes → ℕ → UInt8) × (Bytes → Bytes → ℕ → UInt8)) : X × (Pt → UInt8) := (w.1, joinO w.2.1 w.2.2)

theorem joinW_inj {X : Type} : Function.Injective (joinW (X := X)) := by
  rintro ⟨x, T, C⟩ ⟨x', T', C'⟩ h
  simp only [joinW, Prod.mk.injEq] at h
  obtain ⟨rfl, h⟩ := h
  have h1 : T = T' := by funext m i; exact congrFun h (.inl (m, i))
  have h2 : C = C' := by funext k x i; exact congrFun h (.inr (k, x, i))
  rw [h1, h2]

theorem joinW_surj {X : Type} (w : X × (Pt → UInt8)) : ∃ w', joinW w' = w := by
  refine ⟨(w.1, fun m i => w.2 (.inl (m, i)), fun k x i => w.2 (.inr (k, x, i))), ?_⟩
  unfold joinW
  refine Prod.ext rfl ?_
  funext p
  rcases p with ⟨m, i⟩ | ⟨k, x, i⟩ <;> rfl

theorem Env.worlds_eq (e : Env) (S : Set Bytes) : (treeWorlds e.prims e.n S (16 * e.B)).ncard =
    {w : (Fin e.n → Bytes) × (Pt → UInt8) | w.1 ∈ e.rands ∧ w.2 ∈ Varies (e.space S) (baseO e.prims)}.ncard := by
  rw [← Set.ncard_image_of_injective _ joinW_inj]
  congr 1
  ext w
  obtain ⟨w, rfl⟩ := joinW_surj w
  rw [joinW_inj.mem_set_image]
  exact and_congr Iff.rfl joinO_mem.symm

theorem Env.seen_eq {e : Env} (he : e.Ok) {ms : ℕ → List Bool} (hm : ∀ k < e.n, (ms k).length = e.bits) (S : Set Bytes) (E : Set TreeView) :
    {w ∈ treeWorlds e.prims e.n S (16 * e.B) | ∃ v ∈ E, treeView (withOracles e.prims w.2.1 w.2.2) e.fuel e.bits e.verifyKey e.ctx e.b
      e.n e.cands ms (coinsOf e.nonces w.1) e.strat e.q = .ok v}.ncard =
    {w : (Fin e.n → Bytes) × (Pt → UInt8) | w.1 ∈ e.rands ∧ w.2 ∈ Varies (e.space S) (baseO e.prims) ∧
      e.real ms w.1 w.2 ∈ Except.ok '' E}.ncard := by
  rw [← Set.ncard_image_of_injective _ joinW_inj]
  congr 1
  ext w
  obtain ⟨w, rfl⟩ := joinW_surj w
  rw [joinW_inj.mem_set_image]
  have key : w.1 ∈ e.rands → ((∃ v ∈ E, treeView (withOracles e.prims w.2.1 w.2.2) e.fuel e.bits e.verifyKey e.ctx e.b
      e.n e.cands ms (coinsOf e.nonces w.1) e.strat e.q = .ok v) ↔ e.real ms w.1 (joinO w.2.1 w.2.2) ∈ Except.ok '' E) := by
    intro hx
    have := e.view_eq he (P := withOracles e.prims w.2.1 w.2.2) hm hx
    rw [this]
    constructor
    · rintro ⟨v, hv, h⟩; exact ⟨v, hv, h.symm⟩
    · rintro ⟨v, hv, h⟩; exact ⟨v, hv, h.symm⟩
  constructor
  · rintro ⟨⟨h1, h2, h3⟩, h4⟩
    exact ⟨h1, joinO_mem.2 ⟨h2, h3⟩, (key h1).1 h4⟩
  · rintro ⟨h1, h2, h3⟩
    exact ⟨⟨h1, (joinO_mem.1 h2).1, (joinO_mem.1 h2).2⟩, (key h1).2 h3⟩

/-- The advantage of the attackers -/
theorem Env.advantage {e : Env} (he : e.Ok) {m0 m1 : ℕ → List Bool} (hl : ∀ k < e.n, (e.cands k).length ≤ 2)
    (hm0 : ∀ k < e.n, m0 k ∈ e.cands k) (hm1 : ∀ k < e.n, m1 k ∈ e.cands k) {S : Set Bytes} (hf : S.Finite) (hS : ∀ k < e.n, Spec.poplar1Inputs e.ctx (e.nonces k) ⊆ S) {m : ℕ} (ha : AskAtMost m e.strat)
    {E : Set TreeView} (hE : ∀ v ∈ E, SameCounts m0 m1 v) :
    treeProbability e.prims e.fuel e.bits e.verifyKey e.ctx e.b e.n e.cands m0 e.nonces e.strat e.q S (16 * e.B) E ≤
      treeProbability e.prims e.fuel e.bits e.verifyKey e.ctx e.b e.n e.cands m1 e.nonces e.strat e.q S (16 * e.B) E +
        2 * (e.n * e.L * e.B * (e.K m + e.n * e.L * e.B) : ℕ) / 2 ^ 127 := by
  have l0 : ∀ k < e.n, (m0 k).length = e.bits := fun k hk => he.cands k hk _ (hm0 k hk)
  have l1 : ∀ k < e.n, (m1 k).length = e.bits := fun k hk => he.cands k hk _ (hm1 k hk)
  have hV := e.space_finite hf
  have b0 := e.bad_count he (ms := m0) hl ha hV (O0 := baseO e.prims)
  have b1 := e.bad_count he (ms := m1) hl ha hV (O0 := baseO e.prims)
  have c0 := (e.couple he hm0 hf hS (baseO e.prims) (Except.ok '' E) rfl rfl rfl).2
  have c1 := (e.couple he hm1 hf hS (baseO e.prims) (Except.ok '' E) rfl rfl rfl).1
  have i0 := e.ideal_le he (ms := m0) hm1 hV (baseO e.prims) hE
  unfold treeProbability
  rw [e.seen_eq he l0, e.seen_eq he l1, e.worlds_eq]
  have hW : {w : e.World | w.1 ∈ e.rands ∧ w.2.1 ∈ Varies (e.space S) (baseO e.prims)}.ncard =
      {w : (Fin e.n → Bytes) × (Pt → UInt8) | w.1 ∈ e.rands ∧ w.2 ∈ Varies (e.space S) (baseO e.prims)}.ncard * Nat.card (e.Idx → UInt8) := by
    rw [← Set.ncard_univ (e.Idx → UInt8), ← Set.ncard_prod]
    refine Set.ncard_congr (fun w _ => ((w.1, w.2.1), w.2.2)) ?_ ?_ ?_
    · rintro w ⟨h1, h2⟩; exact ⟨⟨h1, h2⟩, trivial⟩
    · rintro ⟨x, O, σ⟩ ⟨x', O', σ'⟩ _ _ h
      simp only [Prod.mk.injEq] at h
      obtain ⟨⟨rfl, rfl⟩, rfl⟩ := h
      rfl
    · rintro ⟨⟨x, O⟩, σ⟩ ⟨⟨h1, h2⟩, -⟩
      exact ⟨(x, O, σ), ⟨h1, h2⟩, rfl⟩
  rw [hW] at b0 b1
  generalize {w : (Fin e.n → Bytes) × (Pt → UInt8) | w.1 ∈ e.rands ∧ w.2 ∈ Varies (e.space S) (baseO e.prims)}.ncard = W at *
  generalize {w : (Fin e.n → Bytes) × (Pt → UInt8) | w.1 ∈ e.rands ∧ w.2 ∈ Varies (e.space S) (baseO e.prims) ∧
      e.real m0 w.1 w.2 ∈ Except.ok '' E}.ncard = A0 at *
  generalize {w : (Fin e.n → Bytes) × (Pt → UInt8) | w.1 ∈ e.rands ∧ w.2 ∈ Varies (e.space S) (baseO e.prims) ∧
      e.real m1 w.1 w.2 ∈ Except.ok '' E}.ncard = A1 at *
  have hcard : 0 < Nat.card (e.Idx → UInt8) := Nat.card_pos
  generalize Nat.card (e.Idx → UInt8) = c at *
  generalize e.n * e.L * e.B * (e.K m + e.n * e.L * e.B) = M at *
  have key : A0 * 2 ^ 127 ≤ A1 * 2 ^ 127 + 2 * (W * M) := by
    refine Nat.le_of_mul_le_mul_right ?_ hcard
    have x0 := Nat.mul_le_mul_right (2 ^ 127) ((c0.trans (Nat.add_le_add_right i0 _)).trans (Nat.add_le_add_right c1 _))
    have x1 := Nat.add_le_add b0 b1
    rw [Nat.add_mul, Nat.add_mul] at x0
    calc A0 * 2 ^ 127 * c = A0 * c * 2 ^ 127 := by ring
      _ ≤ _ := x0
      _ ≤ A1 * c * 2 ^ 127 + (W * c * M + W * c * M) := by
        have := Nat.add_le_add_left x1 (A1 * c * 2 ^ 127)
        refine le_trans (le_of_eq ?_) this
        rw [Nat.add_assoc, Nat.add_comm (_ * 2 ^ 127) (_ * 2 ^ 127)]
      _ = (A1 * 2 ^ 127 + 2 * (W * M)) * c := by ring
  rcases Nat.eq_zero_or_pos W with rfl | hpos
  · simp only [Nat.cast_zero, div_zero, zero_add]
    positivity
  · have hW' : (0 : ℚ) < W := by exact_mod_cast hpos
    have key' : (A0 : ℚ) * 2 ^ 127 ≤ A1 * 2 ^ 127 + 2 * (W * M) := by exact_mod_cast key
    rw [div_add_div _ _ hW'.ne' (by norm_num), div_le_div_iff₀ hW' (by positivity)]
    have := mul_le_mul_of_nonneg_left key' hW'.le
    refine le_of_eq_of_le ?_ (this.trans (le_of_eq ?_)) <;> ring

end Vdaf.PO
