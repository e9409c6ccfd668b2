import Verif.Proofs.PoplarAct

/-! How often an input of an oracle is met twice. -/

set_option linter.unusedSectionVars false

namespace Vdaf.PO
open Spec (bytesAt clearBit lowBit poplarIdpf levelKind Askable TreeReply TreeMove TreeView TreeStrategy coinsOf)

/-! ### Small sets -/

def Few {α : Type*} (C : Set α) (m : ℕ) : Prop := C.Finite ∧ C.ncard ≤ m

section
variable {α β : Type*} {A B : Set α} {a b m : ℕ}

theorem Few.ncard_le' (h : Few A a) : A.ncard ≤ a := h.2
theorem Few.mono (h : Few A a) (hab : a ≤ b) : Few A b := ⟨h.1, h.2.trans hab⟩
theorem Few.subset (h : Few A a) (hs : B ⊆ A) : Few B a := ⟨h.1.subset hs, (Set.ncard_le_ncard hs h.1).trans h.2⟩
theorem Few.union (h : Few A a) (h' : Few B b) : Few (A ∪ B) (a + b) :=
  ⟨h.1.union h'.1, (Set.ncard_union_le A B).trans (Nat.add_le_add h.2 h'.2)⟩
theorem Few.empty : Few (∅ : Set α) m := ⟨Set.finite_empty, by simp⟩
theorem Few.singleton (x : α) : Few ({x} : Set α) 1 := ⟨Set.finite_singleton x, by simp⟩

theorem Few.iUnion {I : Set β} {f : β → Set α} (hI : Few I a) (hf : ∀ i ∈ I, Few (f i) m) : Few {c | ∃ i ∈ I, c ∈ f i} (a * m) := by
  classical
  obtain ⟨hF, hc⟩ := hI
  have e : {c | ∃ i ∈ I, c ∈ f i} = ⋃ i ∈ hF.toFinset, f i := by
    ext c; simp
  refine ⟨?_, ?_⟩
  · rw [e]
    exact Set.Finite.biUnion (Finset.finite_toSet _) fun i hi => (hf i (by simpa using hi)).1
  · rw [e]
    refine (Finset.set_ncard_biUnion_le _ _).trans ?_
    refine (Finset.sum_le_sum fun i hi => (hf i (by simpa using hi)).2).trans ?_
    rw [Finset.sum_const, smul_eq_mul, ← Set.ncard_eq_toFinset_card I hF]
    exact Nat.mul_le_mul_right _ hc

theorem Few.lt (n : ℕ) : Few {i | i < n} n := ⟨Set.finite_lt_nat n, by
  have : {i | i < n} = ((Finset.range n : Finset ℕ) : Set ℕ) := by ext; simp
  rw [this, Set.ncard_coe_finset, Finset.card_range]⟩

theorem Few.mem (l : List β) : Few {x | x ∈ l} l.length := by
  classical
  have : {x | x ∈ l} = ((l.toFinset : Finset β) : Set β) := by ext; simp
  rw [this]
  exact ⟨Finset.finite_toSet _, by rw [Set.ncard_coe_finset]; exact List.toFinset_card_le l⟩

theorem Few.all (β : Type*) [Fintype β] : Few (Set.univ : Set β) (Fintype.card β) :=
  ⟨Set.finite_univ, by rw [Set.ncard_univ, Nat.card_eq_fintype_card]⟩

theorem Few.preimage {f : β → α} (hf : Function.Injective f) (h : Few A a) : Few {x | f x ∈ A} a := by
  refine ⟨Set.Finite.preimage hf.injOn h.1, ?_⟩
  exact (Set.ncard_le_ncard_of_injOn f (fun x hx => hx) hf.injOn h.1).trans h.2

end

/-! ### The shifts of a secret -/

abbrev Shift := {d : Bytes // d.length = 16 ∧ lowBit d = false}

noncomputable instance : Fintype Shift := Set.Finite.fintype (s := keepSet false) (by
  exact (finite_bytes 16).subset fun d hd => hd.1)

theorem shift_card : Fintype.card Shift = 2 ^ 127 := by
  rw [← keepSet_ncard false, ← Nat.card_eq_fintype_card]
  rfl

section
variable (e : Env) (ms : ℕ → List Bool)

abbrev Env.World := (Fin e.n → Bytes) × (Pt → UInt8) × (e.Idx → UInt8)

/-- The mask for the stream of a label -/
def Env.actMask (alpha : List Bool) (d : Bytes) (g : Lab e.bits) : Lab e.bits → ℕ → UInt8
  | .inl _, _ => 0
  | .inr (ℓ', u'), i => e.actNode alpha d ℓ' u' g i

/-- The secret with the label `g` of the report `k0` is changed. -/
def Env.act (k0 : Fin e.n) (g : Lab e.bits) (d : Bytes) (w : e.World) : e.World :=
  (fun k => if k = k0 then e.actRand d (w.1 k) g else w.1 k, w.2.1,
    fun i => if i.1 = k0 then w.2.2 i ^^^ e.actMask (ms k0) d g i.2.1 i.2.2 else w.2.2 i)

variable {e ms}

theorem Env.actRand_actRand (d rand : Bytes) (g : Lab e.bits) : e.actRand d (e.actRand d rand g) g = rand := by
  match g with
  | .inl 0 => exact mixAt_mixAt _ _ _
  | .inl 1 => exact mixAt_mixAt _ _ _
  | .inl 2 => exact mixAt_mixAt _ _ _
  | .inr (ℓ, u) =>
    show ite _ _ (ite _ _ _) = _
    by_cases h : (ℓ : ℕ) = 0 ∧ (u : ℕ) = 0
    · simp only [if_pos h]
      rw [show e.actRand d rand (Sum.inr (ℓ, u)) = mixAt (16 * (1 - e.b)) d rand from if_pos h]
      exact mixAt_mixAt _ _ _
    · rw [if_neg h]
      exact if_neg h

theorem Env.actRand_length (d rand : Bytes) (g : Lab e.bits) : (e.actRand d rand g).length = rand.length := by
  match g with
  | .inl 0 => exact mixAt_length _ _ _
  | .inl 1 => exact mixAt_length _ _ _
  | .inl 2 => exact mixAt_length _ _ _
  | .inr (ℓ, u) =>
    show (ite _ _ _ : Bytes).length = _
    split
    · exact mixAt_length _ _ _
    · rfl

theorem Env.act_act (k0 : Fin e.n) (g : Lab e.bits) (d : Bytes) (w : e.World) : e.act ms k0 g d (e.act ms k0 g d w) = w := by
  obtain ⟨x, O, σ⟩ := w
  unfold Env.act
  dsimp only
  refine Prod.ext ?_ (Prod.ext rfl ?_)
  · funext k
    dsimp only
    split
    · exact e.actRand_actRand _ _ _
    · rfl
  · funext i
    dsimp only
    split
    · rw [UInt8.xor_assoc, UInt8.xor_self, UInt8.xor_zero]
    · rfl

theorem Env.act_fresh_off (k0 : Fin e.n) (g : Lab e.bits) (d : Bytes) (w : e.World) {k : ℕ} (hk : k ≠ k0) :
    e.fresh (e.act ms k0 g d w).2.2 k = e.fresh w.2.2 k := by
  have h : ∀ l, e.strm (e.act ms k0 g d w).2.2 k l = e.strm w.2.2 k l := by
    intro l
    funext i
    unfold Env.strm
    by_cases hc : k < e.n ∧ i < 16 * e.B
    · rw [dif_pos hc, dif_pos hc]
      show ite _ _ _ = _
      exact if_neg fun hh => hk (congrArg Fin.val hh)
    · rw [dif_neg hc, dif_neg hc]
  unfold Env.fresh
  simp only [h]

theorem Env.act_fresh (he : e.Ok) (k0 : Fin e.n) (g : Lab e.bits) {d : Bytes} (hd : d.length = 16) (w : e.World) :
    e.fresh (e.act ms k0 g d w).2.2 k0 = e.actFresh (ms k0) d (e.fresh w.2.2 k0) g := by
  have hN := he.N1
  have h : ∀ l i, i < 16 * e.B → e.strm (e.act ms k0 g d w).2.2 k0 l i = e.strm w.2.2 k0 l i ^^^ e.actMask (ms k0) d g l i := by
    intro l i hi
    unfold Env.strm
    rw [dif_pos ⟨k0.2, hi⟩, dif_pos ⟨k0.2, hi⟩]
    exact if_pos rfl
  have h0 : ∀ (σ : e.Idx → UInt8) l i, ¬ i < 16 * e.B → e.strm σ k0 l i = 0 := by
    intro σ l i hi
    unfold Env.strm
    exact dif_neg fun hh => hi hh.2
  have hf : ∀ l : Fin 3, e.strm (e.act ms k0 g d w).2.2 k0 (.inl l) = e.strm w.2.2 k0 (.inl l) := by
    intro l; funext i
    by_cases hi : i < 16 * e.B
    · rw [h _ _ hi]; exact UInt8.xor_zero
    · rw [h0 _ _ _ hi, h0 _ _ _ hi]
  unfold Env.fresh Env.actFresh
  dsimp only
  rw [hf, hf, hf]
  congr 1
  funext ℓ' u' i
  by_cases hc : ℓ' < e.bits ∧ u' < 2
  · rw [dif_pos hc, dif_pos hc]
    by_cases hi : i < 16 * e.B
    · exact h _ _ hi
    · rw [h0 _ _ _ hi, h0 _ _ _ hi]
      have : e.actNode (ms k0) d ℓ' u' g i = 0 := by
        match g with
        | .inl _ => rfl
        | .inr (ℓ, u) =>
          show ite _ (ite _ _ _) (ite _ _ _) = _
          have a : ∀ off ≤ 16, shiftB off d i = 0 := fun off ho => shiftB_zero (Or.inr (by omega))
          rw [a 0 (by omega), a _ (by split <;> omega)]
          split <;> split <;> rfl
      rw [this]; rfl
  · rw [dif_neg hc, dif_neg hc]
    have : e.actNode (ms k0) d ℓ' u' g i = 0 := by
      match g with
      | .inl _ => rfl
      | .inr (ℓ, u) =>
        have := ℓ.2
        show ite _ (ite _ _ _) (ite _ _ _) = _
        split
        · exact if_neg (by omega)
        · exact if_neg (by omega)
    rw [this]; rfl

theorem Env.act_rand_off (k0 : Fin e.n) (g : Lab e.bits) (d : Bytes) (w : e.World) {k : ℕ} (hk : k ≠ k0) :
    e.randOf (e.act ms k0 g d w).1 k = e.randOf w.1 k := by
  unfold Env.randOf coinsOf
  dsimp only
  split
  · rename_i h
    show ite _ _ _ = _
    exact if_neg fun hh => hk (congrArg Fin.val hh)
  · rfl

theorem Env.act_rand (k0 : Fin e.n) (g : Lab e.bits) (d : Bytes) (w : e.World) :
    e.randOf (e.act ms k0 g d w).1 k0 = e.actRand d (e.randOf w.1 k0) g := by
  unfold Env.randOf coinsOf
  dsimp only
  rw [dif_pos k0.2, dif_pos k0.2]
  exact if_pos rfl

/-! ### The cells that a secret must avoid -/

variable (e ms)

def Env.wknown (w : e.World) : Set Cell := e.known (primsO e.prims w.2.1) (e.iT ms w.1 w.2.1 w.2.2) (e.iR ms w.1 w.2.1 w.2.2)
def Env.wsecret (w : e.World) (k : ℕ) (l : Lab e.bits) : ℕ → Cell := e.secret (e.iT ms w.1 w.2.1 w.2.2 k) (e.randOf w.1 k) k l
def Env.others (w : e.World) (k0 : Fin e.n) (g : Lab e.bits) : Set Cell :=
  {c | ∃ k : Fin e.n, k ∈ Set.univ ∧ c ∈ {c | ∃ l : Lab e.bits, l ∈ Set.univ ∧ c ∈ {c | ∃ j, j ∈ {j | j < e.B} ∧
    c ∈ {c | (k, grp l) ≠ (k0, grp g) ∧ c = e.wsecret ms w k l j}}}}

variable {e ms} (he : e.Ok) {k0 : Fin e.n} {g : Lab e.bits} {d : Bytes} (hd : d.length = 16) (hl : lowBit d = false) (w : e.World)
include he hd hl

theorem Env.act_iR : e.iR ms (e.act ms k0 g d w).1 (e.act ms k0 g d w).2.1 (e.act ms k0 g d w).2.2 = e.iR ms w.1 w.2.1 w.2.2 := by
  funext k
  unfold Env.iR
  by_cases hk : k = k0
  · subst hk
    rw [e.act_rand, e.act_fresh he k0 g hd]
    exact (e.act_alike he hd hl g).rep _ _
  · rw [e.act_rand_off _ _ _ _ hk, e.act_fresh_off _ _ _ _ hk]
    rfl

theorem Env.act_pathCells (k : ℕ) (p : ℕ → Bool) :
    e.pathCells (e.iT ms (e.act ms k0 g d w).1 (e.act ms k0 g d w).2.1 (e.act ms k0 g d w).2.2 k) k p =
      e.pathCells (e.iT ms w.1 w.2.1 w.2.2 k) k p := by
  unfold Env.iT
  by_cases hk : k = k0
  · subst hk
    rw [e.act_rand, e.act_fresh he k0 g hd]
    exact (e.act_alike he hd hl g).pathCells _ _ _
  · rw [e.act_rand_off _ _ _ _ hk, e.act_fresh_off _ _ _ _ hk]
    rfl

theorem Env.act_known : e.wknown ms (e.act ms k0 g d w) = e.wknown ms w := by
  unfold Env.wknown Env.known
  rw [e.act_iR he hd hl w]
  have h : ∀ m, e.moveCells (e.iT ms (e.act ms k0 g d w).1 (e.act ms k0 g d w).2.1 (e.act ms k0 g d w).2.2) m =
      e.moveCells (e.iT ms w.1 w.2.1 w.2.2) m := by
    intro m
    cases m with
    | start k param =>
      unfold Env.moveCells
      simp only [e.act_pathCells he hd hl w]
    | _ => rfl
  simp only [e.act_pathCells he hd hl w, h]
  rfl

theorem Env.act_seed_off {k : ℕ} {l : Lab e.bits} (h : (k, grp l) ≠ ((k0 : ℕ), grp g)) :
    e.wsecret ms (e.act ms k0 g d w) k l = e.wsecret ms w k l := by
  unfold Env.wsecret Env.secret Env.iT
  by_cases hk : k = k0
  · subst hk
    rw [e.act_rand, e.act_fresh he k0 g hd, e.act_seed he hd hl, if_neg fun hh => h (by rw [hh])]
    rfl
  · rw [e.act_rand_off _ _ _ _ hk, e.act_fresh_off _ _ _ _ hk]
    rfl

theorem Env.act_seed_on : e.wsecret ms (e.act ms k0 g d w) k0 g =
    e.labCell k0 g (mix d (e.labSeed (e.iT ms w.1 w.2.1 w.2.2 k0) (e.randOf w.1 k0) g)) := by
  unfold Env.wsecret Env.secret Env.iT
  rw [e.act_rand, e.act_fresh he k0 g hd, e.act_seed he hd hl, if_pos rfl]
  rfl

theorem Env.act_others : e.others ms (e.act ms k0 g d w) k0 g = e.others ms w k0 g := by
  unfold Env.others
  ext c
  refine exists_congr fun k => and_congr_right fun _ => exists_congr fun l => and_congr_right fun _ => exists_congr fun j =>
    and_congr_right fun _ => and_congr_right fun h => ?_
  rw [e.act_seed_off he hd hl w (k := k) (l := l) fun hh => h ?_]
  rw [Prod.mk.injEq] at hh ⊢
  exact ⟨Fin.ext hh.1, hh.2⟩

end

/-! ### Counting -/

section
variable {e : Env} (he : e.Ok) {ms : ℕ → List Bool}

theorem Env.pathCells_few (T : Tree) (k : ℕ) (p : ℕ → Bool) : Few (e.pathCells T k p) (e.bits * (e.B * 2)) := by
  have h : ∀ ℓ j, Few ({nodeCell e.prims e.bits e.ctx (e.nonces k) ℓ 0 (path T.Sb T.cs T.cc T.keyb (decide (T.b ≠ 0)) p ℓ).1 j} ∪
    {nodeCell e.prims e.bits e.ctx (e.nonces k) ℓ 1 (kid T.Sb T.cs T.cc T.keyb (decide (T.b ≠ 0)) p ℓ) j} : Set Cell) 2 :=
    fun ℓ j => (Few.singleton _).union (Few.singleton _)
  exact Few.iUnion (Few.lt e.bits) fun ℓ _ => Few.iUnion (Few.lt e.B) fun j _ => h ℓ j

variable {m : ℕ} (hc : ∀ k < e.n, (e.cands k).length ≤ 2)
  (hm : ∀ views replies k param, e.strat views replies = .start k param → param.2.length ≤ m)

include hm in
theorem Env.moveCells_few (T : ℕ → Tree) (views replies) :
    Few (e.moveCells T (e.strat views replies)) (1 + m * (e.bits * (e.B * 2))) := by
  cases h : e.strat views replies with
  | turboShake _ => exact (Few.singleton _).mono (by omega)
  | cipher _ _ => exact (Few.singleton _).mono (by omega)
  | send _ _ _ => exact Few.empty
  | collect _ _ => exact Few.empty
  | start k param =>
    refine Few.mono (Few.subset (Few.iUnion (Few.mem param.2) fun p _ => e.pathCells_few (T k) k (bitOf p)) ?_)
      ((Nat.mul_le_mul_right _ (hm _ _ _ _ h)).trans (by omega))
    rintro c ⟨-, -, p, hp, hc⟩
    exact ⟨p, hp, hc⟩

/-- The number of cells that are met -/
def Env.K (e : Env) (m : ℕ) : ℕ := e.n * (2 * (e.bits * (e.B * 2))) + e.q * (1 + m * (e.bits * (e.B * 2)))
/-- The number of secrets of a report -/
def Env.L (e : Env) : ℕ := 3 + e.bits * 2

include hc hm in
theorem Env.known_few (P : Prims) (T : ℕ → Tree) (rep : ℕ → Res Rep) : Few (e.known P T rep) (e.K m) := by
  refine Few.union ?_ ?_
  · exact Few.iUnion (Few.lt e.n) fun k hk => (Few.iUnion (Few.mem (e.cands k)) fun p _ => e.pathCells_few (T k) k (bitOf p)).mono
      (Nat.mul_le_mul_right _ (hc k hk))
  · cases hs : mapRes rep (List.range e.n) with
    | error _ =>
      refine Few.subset Few.empty ?_
      rintro c ⟨ss, h, -⟩
      cases h
    | ok ss =>
      refine Few.subset (Few.iUnion (f := fun t => {c | ∃ r, e.play P ss t = .ok r ∧ c ∈ e.moveCells T (e.strat (ss.map (Rep.item e.b)) r.1)})
        (Few.lt e.q) fun t _ => ?_) ?_
      · cases hp : e.play P ss t with
        | error _ =>
          refine Few.subset Few.empty ?_
          rintro c ⟨r, h, -⟩
          cases h
        | ok r =>
          refine Few.subset (e.moveCells_few hm T (ss.map (Rep.item e.b)) r.1) ?_
          rintro c ⟨r', h, h'⟩
          cases h
          exact h'
      · rintro c ⟨ss', h, t, ht, r, hr, hcc⟩
        cases h
        exact ⟨t, ht, r, hr, hcc⟩

theorem Env.others_few (w : e.World) (k0 : Fin e.n) (g : Lab e.bits) : Few (e.others ms w k0 g) (e.n * (e.L * (e.B * 1))) := by
  have h1 := Few.all (Fin e.n)
  have h2 := Few.all (Lab e.bits)
  rw [Fintype.card_fin] at h1
  rw [Fintype.card_sum, Fintype.card_prod, Fintype.card_fin, Fintype.card_fin, Fintype.card_fin] at h2
  refine Few.iUnion h1 fun k _ => Few.iUnion h2 fun l _ => Few.iUnion (Few.lt e.B) fun j _ => ?_
  refine Few.subset (Few.singleton (e.wsecret ms w k l j)) ?_
  rintro c ⟨-, rfl⟩
  rfl

/-- The secret with the label `g` of the report `k0` is met. -/
def Env.Hit (e : Env) (ms : ℕ → List Bool) (W : Set e.World) (k0 : Fin e.n) (g : Lab e.bits) : Set e.World :=
  {w ∈ W | ∃ j, j ∈ {j | j < e.B} ∧ e.wsecret ms w k0 g j ∈ e.wknown ms w ∪ e.others ms w k0 g}

include he hc hm in
theorem Env.hit_count {V : Set Pt} (hV : V.Finite) (O0 : Pt → UInt8) (k0 : Fin e.n) (g : Lab e.bits) :
    (e.Hit ms {w | w.1 ∈ e.rands ∧ w.2.1 ∈ Varies V O0} k0 g).ncard * 2 ^ 127 ≤
      ({w | w.1 ∈ e.rands ∧ w.2.1 ∈ Varies V O0} : Set e.World).ncard * (e.B * (e.K m + e.n * (e.L * e.B))) := by
  have hW : ({w | w.1 ∈ e.rands ∧ w.2.1 ∈ Varies V O0} : Set e.World).Finite := by
    refine ((e.rands_finite.prod ((varies_finite hV O0).prod (Set.finite_univ (α := e.Idx → UInt8))))).subset ?_
    rintro ⟨x, O, σ⟩ ⟨h1, h2⟩
    exact ⟨h1, h2, trivial⟩
  rw [← shift_card]
  refine hit_bound (D := Shift) hW (fun w hw => hw.1) (a := fun d w => e.act ms k0 g d.1 w) ?_ ?_ ?_
  · rintro d w ⟨h1, h2⟩
    refine ⟨fun k => ?_, h2⟩
    show (ite _ _ _ : Bytes).length = 128
    split
    · rw [e.actRand_length]; exact h1 k
    · exact h1 k
  · intro d w _ w' _ h
    have := congrArg (e.act ms k0 g d.1) h
    rwa [e.act_act, e.act_act] at this
  · rintro w ⟨hx, -⟩
    refine Few.ncard_le' (Few.subset (Few.iUnion (f := fun j => {d : Shift |
      e.labCell k0 g (mix d.1 (e.labSeed (e.iT ms w.1 w.2.1 w.2.2 k0) (e.randOf w.1 k0) g)) j ∈ e.wknown ms w ∪ e.others ms w k0 g})
      (Few.lt e.B) fun j _ => ?_) ?_)
    · have hlen := e.iT_seed he (ms := ms) hx w.2.1 w.2.2 k0.2 g
      have h16 : 16 ≤ labLen g := by rcases g with g | g <;> simp [labLen]
      refine Few.preimage (f := fun d : Shift => e.labCell k0 g (mix d.1 (e.labSeed (e.iT ms w.1 w.2.1 w.2.2 k0) (e.randOf w.1 k0) g)) j) ?_
        (((e.known_few hc hm _ _ _).union (e.others_few w k0 g)).mono (by rw [Nat.mul_one]))
      intro d d' h
      have := e.labCell_seed he (by rw [mix_length]; exact hlen) (by rw [mix_length]; exact hlen) h
      exact Subtype.ext (mix_inj (by rw [d.2.1, d'.2.1]) (by rw [d.2.1, hlen]; exact h16) this)
    · rintro d ⟨-, j, hj, h⟩
      refine ⟨j, hj, ?_⟩
      rw [e.act_known he d.2.1 d.2.2, e.act_others he d.2.1 d.2.2, e.act_seed_on he d.2.1 d.2.2] at h
      exact h

include he in
theorem Env.bad_hit {w : e.World} (hx : w.1 ∈ e.rands) (h : ¬ e.IsGood ms w.1 w.2.1 w.2.2) {W : Set e.World} (hw : w ∈ W) :
    ∃ k0 g, w ∈ e.Hit ms W k0 g := by
  by_contra hno
  push Not at hno
  apply h
  have key : ∀ (k : ℕ) (hk : k < e.n) l, ∀ j < e.B, e.wsecret ms w k l j ∉ e.wknown ms w ∪ e.others ms w ⟨k, hk⟩ l := by
    intro k hk l j hj hh
    exact hno ⟨k, hk⟩ l ⟨hw, j, hj, hh⟩
  refine ⟨fun k hk l j hj hh => key k hk l j hj (Or.inl hh), ?_⟩
  intro k hk l j hj k' hk' l' j' hj' hne heq
  by_cases hg : ((⟨k', hk'⟩ : Fin e.n), grp l') = (⟨k, hk⟩, grp l)
  · simp only [Prod.mk.injEq, Fin.mk.injEq] at hg
    obtain ⟨rfl, hg⟩ := hg
    have hll : l ≠ l' := fun hh => hne (by rw [hh])
    have s1 := e.iT_seed he (ms := ms) hx w.2.1 w.2.2 hk
    match l, l', hg, hll, heq with
    | .inl 1, .inl 2, _, _, heq => exact e.labCell_corr he (s1 (.inl 1)) (s1 (.inl 2)) heq
    | .inl 2, .inl 1, _, _, heq => exact e.labCell_corr he (s1 (.inl 1)) (s1 (.inl 2)) heq.symm
    | .inl 0, .inl 0, _, hll, _ => exact hll rfl
    | .inl 1, .inl 1, _, hll, _ => exact hll rfl
    | .inl 2, .inl 2, _, hll, _ => exact hll rfl
    | .inl 0, .inl 1, hg, _, _ => simp [grp] at hg
    | .inl 0, .inl 2, hg, _, _ => simp [grp] at hg
    | .inl 1, .inl 0, hg, _, _ => simp [grp] at hg
    | .inl 2, .inl 0, hg, _, _ => simp [grp] at hg
    | .inl 0, .inr _, hg, _, _ => simp [grp] at hg
    | .inl 1, .inr _, hg, _, _ => simp [grp] at hg
    | .inl 2, .inr _, hg, _, _ => simp [grp] at hg
    | .inr _, .inl 0, hg, _, _ => simp [grp] at hg
    | .inr _, .inl 1, hg, _, _ => simp [grp] at hg
    | .inr _, .inl 2, hg, _, _ => simp [grp] at hg
    | .inr a, .inr c, hg, hll, _ => exact hll hg.symm
  · exact key k hk l j hj (Or.inr ⟨⟨k', hk'⟩, trivial, l', trivial, j', hj', hg, heq⟩)

include he hc hm in
/-- The number of worlds in which an input is met twice -/
theorem Env.bad_count {V : Set Pt} (hV : V.Finite) (O0 : Pt → UInt8) :
    {w : e.World | w.1 ∈ e.rands ∧ w.2.1 ∈ Varies V O0 ∧ ¬ e.IsGood ms w.1 w.2.1 w.2.2}.ncard * 2 ^ 127 ≤
      ({w | w.1 ∈ e.rands ∧ w.2.1 ∈ Varies V O0} : Set e.World).ncard * (e.n * e.L * e.B * (e.K m + e.n * e.L * e.B)) := by
  classical
  obtain ⟨W, hWd⟩ : ∃ W : Set e.World, W = {w | w.1 ∈ e.rands ∧ w.2.1 ∈ Varies V O0} := ⟨_, rfl⟩
  have hW : W.Finite := by
    rw [hWd]
    refine ((e.rands_finite.prod ((varies_finite hV O0).prod (Set.finite_univ (α := e.Idx → UInt8))))).subset ?_
    rintro ⟨x, O, σ⟩ ⟨h1, h2⟩
    exact ⟨h1, h2, trivial⟩
  have hsub : {w : e.World | w.1 ∈ e.rands ∧ w.2.1 ∈ Varies V O0 ∧ ¬ e.IsGood ms w.1 w.2.1 w.2.2} ⊆
      ⋃ i ∈ (Finset.univ : Finset (Fin e.n × Lab e.bits)), e.Hit ms W i.1 i.2 := by
    rintro w ⟨h1, h2, h3⟩
    obtain ⟨k0, g, h⟩ := e.bad_hit he h1 h3 (W := W) (by rw [hWd]; exact ⟨h1, h2⟩)
    simp only [Finset.mem_univ, Set.iUnion_true, Set.mem_iUnion]
    exact ⟨(k0, g), h⟩
  have hfin : (⋃ i ∈ (Finset.univ : Finset (Fin e.n × Lab e.bits)), e.Hit ms W i.1 i.2).Finite := by
    refine hW.subset ?_
    intro w hw
    simp only [Finset.mem_univ, Set.iUnion_true, Set.mem_iUnion] at hw
    obtain ⟨i, hi⟩ := hw
    exact hi.1
  have h1 := (Set.ncard_le_ncard hsub hfin).trans (Finset.set_ncard_biUnion_le _ _)
  have h2 : ∀ i : Fin e.n × Lab e.bits, (e.Hit ms W i.1 i.2).ncard * 2 ^ 127 ≤ W.ncard * (e.B * (e.K m + e.n * (e.L * e.B))) := by
    intro i
    rw [hWd]
    exact e.hit_count he hc hm hV O0 i.1 i.2
  refine (Nat.mul_le_mul_right _ h1).trans ?_
  rw [Finset.sum_mul]
  refine (Finset.sum_le_sum fun i _ => h2 i).trans ?_
  rw [Finset.sum_const, smul_eq_mul, Finset.card_univ, Fintype.card_prod, Fintype.card_sum, Fintype.card_prod, Fintype.card_fin,
    Fintype.card_fin, Fintype.card_fin, Fintype.card_fin, hWd]
  apply le_of_eq
  unfold Env.L
  ring

end

end Vdaf.PO
