import Verif.Proofs.PoplarCouple

/-! The oracles can be coupled if no input is met twice. -/

set_option linter.unusedSectionVars false

namespace Vdaf.PO
open Spec (bytesAt poplarIdpf levelKind Askable TreeReply TreeMove Memory TreeView TreeStrategy coinsOf tag idpfTag xofInput)

section
variable (e : Env)

/-- The number of bytes of a secret -/
def labLen {bits : ℕ} : Lab bits → ℕ
  | .inl _ => 32
  | .inr _ => 16

theorem labLen_le {bits : ℕ} (l : Lab bits) : labLen l ≤ 32 := by
  rcases l with l | l <;> simp [labLen]

/-- The random bytes of a Client -/
def Env.randOf (x : Fin e.n → Bytes) (k : ℕ) : Bytes := (coinsOf e.nonces x k).rand

/-- No secret is met twice. -/
def Env.Good (P : Prims) (T : ℕ → Tree) (rep : ℕ → Res Rep) (rand : ℕ → Bytes) : Prop :=
  (∀ k < e.n, ∀ l, ∀ j < e.B, e.secret (T k) (rand k) k l j ∉ e.known P T rep) ∧
  ∀ k < e.n, ∀ l, ∀ j < e.B, ∀ k' < e.n, ∀ l', ∀ j' < e.B, (k, l) ≠ (k', l') →
    e.secret (T k) (rand k) k l j ≠ e.secret (T k') (rand k') k' l' j'

/-- The point with an index, and its mask -/
def Env.ptAt (T : ℕ → Tree) (rand : ℕ → Bytes) (i : e.Idx) : Pt × UInt8 :=
  (ptOf (e.secret (T i.1) (rand i.1) i.1 i.2.1 (i.2.2 / 16)) i.2.2, maskOf (e.secret (T i.1) (rand i.1) i.1 i.2.1 (i.2.2 / 16)) i.2.2)

/-- The points of the oracles that may vary -/
def Env.space (S : Set Bytes) : Set Pt :=
  {p | (∃ m ∈ S, ∃ i < 16 * e.B, p = .inl (m, i)) ∨ ∃ k x : Bytes, k.length = 16 ∧ x.length = 16 ∧ ∃ i < 16, p = .inr (k, x, i)}

end

section
variable {e : Env} (he : e.Ok)
include he

theorem Env.Ok.tag_len (u : ℕ) : (tag 6 u e.ctx).length < 2 ^ 16 := by
  have : (tag 6 u e.ctx).length = e.ctx.length + 8 := by simp [tag]
  rw [this]; exact he.ctx

theorem Env.Ok.idpfTag_len (u : ℕ) : (idpfTag u e.ctx).length < 2 ^ 16 := by
  have : (idpfTag u e.ctx).length = e.ctx.length + 8 := by simp [idpfTag]
  rw [this]; exact he.ctx

theorem tag_inj {u v : ℕ} {ctx : Bytes} (hu : u < 256) (hv : v < 256) (h : tag 6 u ctx = tag 6 v ctx) : u = v := by
  unfold tag at h
  have := List.append_cancel_right h
  simp only [List.cons.injEq] at this
  have h7 := this.2.2.2.2.2.2.2.1
  have := congrArg UInt8.toNat h7
  simpa [Nat.mod_eq_of_lt hu, Nat.mod_eq_of_lt hv] using this

theorem idpfTag_ne {u v : ℕ} {ctx : Bytes} : idpfTag u ctx ≠ tag 6 v ctx := by
  intro h
  simp [idpfTag, tag] at h

/-- The tag and the binder of a cell of a secret -/
theorem Env.labCell_tag {k : ℕ} {l : Lab e.bits} {seed : Bytes} (hs : seed.length = labLen l) {j : ℕ} {s bd : Bytes} {u : ℕ} (hu : u < 256)
    (hs' : s.length = 32) (h : e.labCell k l seed j = .inl (xofInput s (tag 6 u e.ctx) bd)) :
    seed = s ∧ ((l = .inl 0 ∧ u = 1) ∨ (l = .inl 1 ∧ u = 2 ∧ bd = UInt8.ofNat (1 - e.b) :: e.nonces k) ∨
      (l = .inl 2 ∧ u = 3 ∧ bd = UInt8.ofNat (1 - e.b) :: e.nonces k)) := by
  have hseed : seed.length < 2 ^ 8 := by have := labLen_le l; omega
  match l, h with
  | .inl 0, h =>
    obtain ⟨h1, h2, h3⟩ := turboInput_inj (he.tag_len 1) (he.tag_len u) hseed (by omega) (Sum.inl.inj h)
    exact ⟨h1, Or.inl ⟨rfl, (tag_inj he (by omega) hu h2).symm⟩⟩
  | .inl 1, h =>
    obtain ⟨h1, h2, h3⟩ := turboInput_inj (he.tag_len 2) (he.tag_len u) hseed (by omega) (Sum.inl.inj h)
    exact ⟨h1, Or.inr (Or.inl ⟨rfl, (tag_inj he (by omega) hu h2).symm, h3.symm⟩)⟩
  | .inl 2, h =>
    obtain ⟨h1, h2, h3⟩ := turboInput_inj (he.tag_len 3) (he.tag_len u) hseed (by omega) (Sum.inl.inj h)
    exact ⟨h1, Or.inr (Or.inr ⟨rfl, (tag_inj he (by omega) hu h2).symm, h3.symm⟩)⟩
  | .inr (ℓ, v), h =>
    change nodeCell _ _ _ _ _ _ _ _ = _ at h
    unfold nodeCell at h
    split at h
    · cases h
    · obtain ⟨-, h2, -⟩ := turboInput_inj (he.idpfTag_len v) (he.tag_len u) hseed (by omega) (Sum.inl.inj h)
      exact absurd h2 (idpfTag_ne he)

/-- A cell determines the secret. -/
theorem Env.labCell_seed {k : ℕ} {l : Lab e.bits} {x y : Bytes} (hx : x.length = labLen l) (hy : y.length = labLen l) {j : ℕ}
    (h : e.labCell k l x j = e.labCell k l y j) : x = y := by
  match l, hx, hy, h with
  | .inl 0, hx, hy, h => exact (e.labCell_tag he (l := .inl 0) hx (u := 1) (by omega) hy h).1
  | .inl 1, hx, hy, h => exact (e.labCell_tag he (l := .inl 1) hx (u := 2) (by omega) hy h).1
  | .inl 2, hx, hy, h => exact (e.labCell_tag he (l := .inl 2) hx (u := 3) (by omega) hy h).1
  | .inr (ℓ, v), hx, hy, h => exact nodeCell_seed he.ctx hx hy h

/-- The two purposes of the seed for the correlated randomness differ. -/
theorem Env.labCell_corr {k : ℕ} {x y : Bytes} (hx : x.length = 32) (hy : y.length = 32) {j j' : ℕ} :
    e.labCell k (.inl 1) x j ≠ e.labCell k (.inl 2) y j' := by
  intro h
  rcases (e.labCell_tag he (l := .inl 1) (k := k) hx (u := 3) (by omega) hy h).2 with h | h | h
  · exact absurd h.1 (by simp)
  · exact absurd h.2.1 (by omega)
  · exact absurd h.1 (by simp)

/-- Within the first bytes of a stream every point is different. -/
theorem Env.labCell_pt {k : ℕ} {l : Lab e.bits} {x : Bytes} (hx : x.length = labLen l) {i i' : ℕ} (hi : i < 16 * e.B) (hi' : i' < 16 * e.B)
    (h : ptOf (e.labCell k l x (i / 16)) i = ptOf (e.labCell k l x (i' / 16)) i') : i = i' := by
  match l, hx, h with
  | .inl 0, hx, h => exact ptOf_inl h
  | .inl 1, hx, h => exact ptOf_inl h
  | .inl 2, hx, h => exact ptOf_inl h
  | .inr (ℓ, v), hx, h =>
    change ptOf (nodeCell _ _ _ _ _ _ _ _) _ = ptOf (nodeCell _ _ _ _ _ _ _ _) _ at h
    have hB := he.B
    by_cases hl : (ℓ : ℕ) + 1 < e.bits
    · have h1 := nodeCell_block hl (by omega) (by omega) hx (ptOf_cell h)
      rw [h1] at h
      have := ptOf_mod h
      omega
    · unfold nodeCell at h
      rw [if_neg hl, if_neg hl] at h
      exact ptOf_inl h

theorem Env.labSeed_length {rand : Bytes} {T : Tree}
    (hb : T.keyb.length = 16) (hj : T.keyj.length = 16) (hr : rand.length = 128) (l : Lab e.bits) :
    (e.labSeed T rand l).length = labLen l := by
  have hb' := he.b
  match l with
  | .inl 0 => exact ssOf_length hr
  | .inl 1 => exact seedOf_length hr (by omega)
  | .inl 2 => exact seedOf_length hr (by omega)
  | .inr (ℓ, u) =>
    show (Tree.seedAt _ _ _).length = 16
    unfold Tree.seedAt
    split
    · exact (T.st_length hb hj ℓ).2
    · exact T.xj_length ℓ

end

section
variable (e : Env) (ms : ℕ → List Bool)

/-- The trees, in the experiment with fresh bytes -/
def Env.iT (x : Fin e.n → Bytes) (O : Pt → UInt8) (σ : e.Idx → UInt8) (k : ℕ) : Tree :=
  e.itree (primsO e.prims O) k (ms k) (e.randOf x k) (e.fresh σ k)
/-- The reports, in the experiment with fresh bytes -/
def Env.iR (x : Fin e.n → Bytes) (O : Pt → UInt8) (σ : e.Idx → UInt8) (k : ℕ) : Res Rep :=
  e.irep (primsO e.prims O) k (ms k) (e.randOf x k) (e.fresh σ k)
/-- The experiment with fresh bytes -/
def Env.ideal (x : Fin e.n → Bytes) (O : Pt → UInt8) (σ : e.Idx → UInt8) : Res TreeView :=
  e.gview (primsO e.prims O) (e.iR ms x O σ)
/-- The attack -/
def Env.real (x : Fin e.n → Bytes) (O : Pt → UInt8) : Res TreeView :=
  e.gview (primsO e.prims O) fun k => e.rrep (primsO e.prims O) k (ms k) (e.randOf x k)
def Env.IsGood (x : Fin e.n → Bytes) (O : Pt → UInt8) (σ : e.Idx → UInt8) : Prop :=
  e.Good (primsO e.prims O) (e.iT ms x O σ) (e.iR ms x O σ) (e.randOf x)
/-- The random bytes of the Clients -/
def Env.rands : Set (Fin e.n → Bytes) := {x | ∀ k, (x k).length = 128}

end

section
variable {e : Env} (he : e.Ok) {ms : ℕ → List Bool} (hm : ∀ k < e.n, (ms k).length = e.bits) (hmc : ∀ k < e.n, ms k ∈ e.cands k)

theorem Env.randOf_length {x : Fin e.n → Bytes} (hx : x ∈ e.rands) {k : ℕ} (hk : k < e.n) : (e.randOf x k).length = 128 := by
  unfold Env.randOf coinsOf
  dsimp only
  rw [dif_pos hk]
  exact hx _

include he

theorem Env.iT_seed {x : Fin e.n → Bytes} (hx : x ∈ e.rands) (O : Pt → UInt8) (σ : e.Idx → UInt8) {k : ℕ} (hk : k < e.n) (l : Lab e.bits) :
    (e.labSeed (e.iT ms x O σ k) (e.randOf x k) l).length = labLen l :=
  e.labSeed_length he (keyOf_length (e.randOf_length hx hk) he.b)
    (keyOf_length (e.randOf_length hx hk) (by have := he.b; omega)) (e.randOf_length hx hk) l

theorem Env.pt_inj {x : Fin e.n → Bytes} (hx : x ∈ e.rands) {O : Pt → UInt8} {σ : e.Idx → UInt8} (hg : e.IsGood ms x O σ) :
    Function.Injective fun i => (e.ptAt (e.iT ms x O σ) (e.randOf x) i).1 := by
  rintro ⟨k, l, i⟩ ⟨k', l', i'⟩ h
  unfold Env.ptAt at h
  dsimp only at h
  have hc := ptOf_cell h
  by_cases hkl : ((k : ℕ), l) = ((k' : ℕ), l')
  · simp only [Prod.mk.injEq] at hkl
    obtain ⟨h1, rfl⟩ := hkl
    have h1 : k = k' := Fin.ext h1
    subst h1
    have := e.labCell_pt he (e.iT_seed he hx O σ k.2 l) i.2 i'.2 h
    rw [Fin.ext this]
  · exact absurd hc (hg.2 k k.2 l _ (by have := i.2; omega) k' k'.2 l' _ (by have := i'.2; omega) hkl)

include hmc in
theorem Env.pt_coupled {x : Fin e.n → Bytes} (hx : x ∈ e.rands) {O : Pt → UInt8} {σ : e.Idx → UInt8} (hg : e.IsGood ms x O σ) :
    e.Coupled ms (e.randOf x) O (written (e.ptAt (e.iT ms x O σ) (e.randOf x)) σ O) (e.fresh σ) := by
  have hb := he.b
  have off : ∀ c, (∀ k < e.n, ∀ l, ∀ j < e.B, e.secret (e.iT ms x O σ k) (e.randOf x k) k l j ≠ c) → ∀ i,
      written (e.ptAt (e.iT ms x O σ) (e.randOf x)) σ O (ptOf c i) = O (ptOf c i) := by
    intro c hc i
    unfold written
    apply overwrite_off
    rintro ⟨k, l, i'⟩ h
    exact hc k k.2 l _ (by have := i'.2; omega) (ptOf_cell h)
  have offT : ∀ (s d bd : Bytes), (∀ k < e.n, ∀ l, ∀ j < e.B, e.secret (e.iT ms x O σ k) (e.randOf x k) k l j ≠ .inl (xofInput s d bd)) →
      Spec.turboStream (primsO e.prims (written (e.ptAt (e.iT ms x O σ) (e.randOf x)) σ O)) s d bd =
        Spec.turboStream (primsO e.prims O) s d bd := by
    intro s d bd h
    rw [turboStream_read, turboStream_read]
    funext i
    unfold readC
    rw [off (turboCell s d bd (i / 16)) h]
  have hbb : UInt8.ofNat e.b ≠ UInt8.ofNat (1 - e.b) := by
    interval_cases hh : e.b <;> decide
  refine ⟨?_, ?_, ?_, ?_, ?_⟩
  · intro c hc i
    refine off c ?_ i
    rintro k hk l j hj rfl
    exact hg.1 k hk l j hj hc
  · intro k hk
    refine offT _ _ _ fun k' hk' l j hj h => ?_
    rcases (e.labCell_tag he (e.iT_seed he hx O σ hk' l) (by omega) (seedOf_length (e.randOf_length hx hk) hb) h).2 with h | h | h
    · exact absurd h.2 (by omega)
    · exact hbb (List.cons.inj h.2.2).1
    · exact absurd h.2.1 (by omega)
  · intro k hk
    refine offT _ _ _ fun k' hk' l j hj h => ?_
    rcases (e.labCell_tag he (e.iT_seed he hx O σ hk' l) (by omega) (seedOf_length (e.randOf_length hx hk) hb) h).2 with h | h | h
    · exact absurd h.2 (by omega)
    · exact absurd h.2.1 (by omega)
    · exact hbb (List.cons.inj h.2.2).1
  · intro k hk level
    refine offT _ _ _ fun k' hk' l j hj h => ?_
    rcases (e.labCell_tag he (e.iT_seed he hx O σ hk' l) (by omega) he.key h).2 with h | h | h
    · exact absurd h.2 (by omega)
    · exact absurd h.2.1 (by omega)
    · exact absurd h.2.1 (by omega)
  · intro k hk l i hi
    rw [e.fresh_at]
    have h1 := overwrite_at (e.pt_inj he hx hg) (fun i => σ i ^^^ (e.ptAt (e.iT ms x O σ) (e.randOf x) i).2) O (⟨k, hk⟩, l, ⟨i, hi⟩)
    unfold readC
    change (written (e.ptAt (e.iT ms x O σ) (e.randOf x)) σ O _ ^^^ _) = _
    change written (e.ptAt (e.iT ms x O σ) (e.randOf x)) σ O _ = _ at h1
    unfold Env.strm
    rw [dif_pos ⟨hk, hi⟩]
    change (written (e.ptAt (e.iT ms x O σ) (e.randOf x)) σ O (e.ptAt (e.iT ms x O σ) (e.randOf x) (⟨k, hk⟩, l, ⟨i, hi⟩)).1 ^^^
      (e.ptAt (e.iT ms x O σ) (e.randOf x) (⟨k, hk⟩, l, ⟨i, hi⟩)).2) = _
    rw [h1, UInt8.xor_assoc, UInt8.xor_self, UInt8.xor_zero]

theorem Env.pt_space {S : Set Bytes} (hS : ∀ k < e.n, Spec.poplar1Inputs e.ctx (e.nonces k) ⊆ S) {x : Fin e.n → Bytes} (hx : x ∈ e.rands)
    (O : Pt → UInt8) (σ : e.Idx → UInt8) (i : e.Idx) : (e.ptAt (e.iT ms x O σ) (e.randOf x) i).1 ∈ e.space S := by
  obtain ⟨k, l, i⟩ := i
  have hs := e.iT_seed he (ms := ms) hx O σ k.2 l
  show ptOf (e.labCell k l (e.labSeed (e.iT ms x O σ k) (e.randOf x k) l) (i / 16)) i ∈ _
  generalize e.labSeed (e.iT ms x O σ k) (e.randOf x k) l = seed at hs
  match l, hs with
  | .inl 0, hs => exact Or.inl ⟨_, hS k k.2 (Or.inl ⟨seed, hs, Or.inl rfl⟩), i, i.2, rfl⟩
  | .inl 1, hs => exact Or.inl ⟨_, hS k k.2 (Or.inl ⟨seed, hs, Or.inr ⟨_, Or.inl rfl⟩⟩), i, i.2, rfl⟩
  | .inl 2, hs => exact Or.inl ⟨_, hS k k.2 (Or.inl ⟨seed, hs, Or.inr ⟨_, Or.inr rfl⟩⟩), i, i.2, rfl⟩
  | .inr (ℓ, u), hs =>
    show ptOf (nodeCell _ _ _ _ _ _ _ _) _ ∈ _
    unfold nodeCell
    split
    · exact Or.inr ⟨_, _, fixedKey_length _ _ _ _, sigma_length (by rw [xorBytes_length]; exact hs), _, Nat.mod_lt _ (by omega), rfl⟩
    · exact Or.inl ⟨_, hS k k.2 (Or.inr ⟨seed, u, hs, u.2, rfl⟩), i, i.2, rfl⟩

end

theorem Env.rands_finite (e : Env) : e.rands.Finite := by
  exact Set.Finite.pi' (t := fun _ : Fin e.n => {x : Bytes | x.length = 128}) fun _ => finite_bytes 128

theorem Env.space_finite (e : Env) {S : Set Bytes} (hS : S.Finite) : (e.space S).Finite := by
  refine Set.Finite.subset (((hS.prod (Set.finite_lt_nat (16 * e.B))).image Sum.inl).union
    (((finite_bytes 16).prod ((finite_bytes 16).prod (Set.finite_lt_nat 16))).image Sum.inr)) ?_
  rintro p (⟨m, hm, i, hi, rfl⟩ | ⟨k, x, hk, hx, i, hi, rfl⟩)
  · exact Or.inl ⟨(m, i), ⟨hm, hi⟩, rfl⟩
  · exact Or.inr ⟨(k, x, i), ⟨hk, hx, hi⟩, rfl⟩

/-- The attack leads to an event about as often as the experiment with fresh bytes. -/
theorem Env.couple {e : Env} (he : e.Ok) {ms : ℕ → List Bool}
    (hmc : ∀ k < e.n, ms k ∈ e.cands k) {S : Set Bytes} (hf : S.Finite) (hS : ∀ k < e.n, Spec.poplar1Inputs e.ctx (e.nonces k) ⊆ S)
    (O0 : Pt → UInt8) (E : Set (Res TreeView)) {bad real_E ideal_E : ℕ}
    (hbad : {w : (Fin e.n → Bytes) × (Pt → UInt8) × (e.Idx → UInt8) | w.1 ∈ e.rands ∧ w.2.1 ∈ Varies (e.space S) O0 ∧
      ¬ e.IsGood ms w.1 w.2.1 w.2.2}.ncard = bad)
    (hreal : {w : (Fin e.n → Bytes) × (Pt → UInt8) | w.1 ∈ e.rands ∧ w.2 ∈ Varies (e.space S) O0 ∧ e.real ms w.1 w.2 ∈ E}.ncard = real_E)
    (hideal : {w : (Fin e.n → Bytes) × (Pt → UInt8) × (e.Idx → UInt8) | w.1 ∈ e.rands ∧ w.2.1 ∈ Varies (e.space S) O0 ∧
      e.ideal ms w.1 w.2.1 w.2.2 ∈ E}.ncard = ideal_E) :
    ideal_E ≤ real_E * Nat.card (e.Idx → UInt8) + bad ∧ real_E * Nat.card (e.Idx → UInt8) ≤ ideal_E + bad := by
  refine PO.couple e.rands_finite (e.space_finite hf) (real := e.real ms) (ideal := e.ideal ms)
    (pt := fun x O σ => e.ptAt (e.iT ms x O σ) (e.randOf x))
    (rpt := fun x O => e.ptAt (fun k => e.rtree (primsO e.prims O) k (ms k) (e.randOf x k)) (e.randOf x))
    (good := e.IsGood ms) (fun x hx O hO σ hg => ?_) E hbad hreal hideal
  have hc := e.pt_coupled he hmc hx hg
  refine ⟨e.pt_inj he hx hg, e.pt_space he hS hx O σ, ?_, ?_⟩
  · funext i
    have := hc.secret_eq he hmc (fun k hk => e.randOf_length hx hk) i.1.2 i.2.1
    exact congrArg (fun s : ℕ → Cell => (ptOf (s (i.2.2 / 16)) i.2.2, maskOf (s (i.2.2 / 16)) i.2.2)) this
  · exact hc.view_eq he hmc (fun k hk => e.randOf_length hx hk) he.cands

end Vdaf.PO
