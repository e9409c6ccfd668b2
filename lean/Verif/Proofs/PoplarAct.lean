import Verif.Proofs.PoplarMix

/-! Changing a secret of a report without an effect on anything else. -/

set_option linter.unusedSectionVars false

namespace Vdaf.PO
open Spec (bytesAt clearBit lowBit poplarIdpf levelKind)

/-! ### Trees for which only the honest Aggregator's seeds differ -/

structure Tree.Same (bits : ℕ) (T T' : Tree) : Prop where
  b : T'.b = T.b
  alpha : T'.alpha = T.alpha
  Sb : T'.Sb = T.Sb
  keyb : T'.keyb = T.keyb
  lose : ∀ ℓ < bits, half (T'.e ℓ) (!T.alpha ℓ) = half (T.e ℓ) (!T.alpha ℓ)
  keep : ∀ ℓ < bits, lowBit (half (T'.e ℓ) (T.alpha ℓ)) = lowBit (half (T.e ℓ) (T.alpha ℓ))

section
variable {bits : ℕ} {T T' : Tree}

theorem Tree.Same.level (h : T.Same bits T') {ℓ : ℕ} (hl : ℓ < bits) (h1 : (T'.st ℓ).1 = (T.st ℓ).1) (h2 : (T'.st ℓ).2.1 = (T.st ℓ).2.1) :
    T'.cs ℓ = T.cs ℓ ∧ T'.cc ℓ = T.cc ℓ ∧ T'.xb ℓ = T.xb ℓ ∧ (T'.st (ℓ + 1)).1 = (T.st (ℓ + 1)).1 ∧
      (T'.st (ℓ + 1)).2.1 = (T.st (ℓ + 1)).2.1 := by
  have hE : T'.E ℓ = T.E ℓ := by unfold Tree.E; rw [h.Sb, h1]
  have hcs : T'.cs ℓ = T.cs ℓ := by unfold Tree.cs cwSeed; rw [h.alpha, hE, h.lose ℓ hl]
  have hcc : T'.cc ℓ = T.cc ℓ := by
    unfold Tree.cc cwCtrl
    rw [h.alpha, hE]
    have a := h.lose ℓ hl
    have b := h.keep ℓ hl
    cases ha : T.alpha ℓ with
    | true =>
      rw [ha] at a b
      simp only [Bool.not_true] at a
      rw [a, b]
    | false =>
      rw [ha] at a b
      simp only [Bool.not_false] at a
      rw [a, b]
  have hxb : T'.xb ℓ = T.xb ℓ := by unfold Tree.xb; rw [h.alpha, hE, hcs, h2]
  refine ⟨hcs, hcc, hxb, ?_, ?_⟩
  · rw [T'.st_succ, T.st_succ, hxb, h.Sb]
  · rw [T'.st_succ, T.st_succ, hE, hcc, h2, h.alpha]

theorem Tree.Same.st (h : T.Same bits T') : ∀ ℓ ≤ bits, (T'.st ℓ).1 = (T.st ℓ).1 ∧ (T'.st ℓ).2.1 = (T.st ℓ).2.1 := by
  intro ℓ
  induction ℓ with
  | zero => exact fun _ => ⟨h.keyb, congrArg (fun b : ℕ => decide (b ≠ 0)) h.b⟩
  | succ ℓ ih =>
    intro hl
    obtain ⟨h1, h2⟩ := ih (by omega)
    exact (h.level hl h1 h2).2.2.2

theorem Tree.Same.pub (h : T.Same bits T')
    (hc : ∀ ℓ < bits, ∀ i, 16 ≤ i → T'.Sj ℓ 1 (T'.xj ℓ) i = T.Sj ℓ 1 (T.xj ℓ) i) (fuel : ℕ) (beta : (ℓ : ℕ) → List (Fk (levelKind bits ℓ))) :
    T'.pub fuel bits beta = T.pub fuel bits beta := by
  unfold Tree.pub
  apply mapRes_congr
  intro ℓ hl
  rw [List.mem_range] at hl
  obtain ⟨h1, h2⟩ := h.st ℓ hl.le
  obtain ⟨a1, a2, a3, a4, a5⟩ := h.level hl h1 h2
  unfold Tree.word
  rw [a1, a2, a3, a5, h.b, h.Sb, sampS_congr fun i hi _ => hc ℓ hl i hi]

end

section
variable (e : Env)

/-- The reports with `rand`, `f` and `rand'`, `f'` look alike. -/
structure Env.Alike (alpha : List Bool) (rand : Bytes) (f : Fresh) (rand' : Bytes) (f' : Fresh) : Prop where
  key : keyOf rand' e.b = keyOf rand e.b
  seed : seedOf rand' e.b = seedOf rand e.b
  sh : f'.sh = f.sh
  ci : f'.ci = f.ci
  cl : f'.cl = f.cl
  lose : ∀ ℓ < e.bits, half (f'.node ℓ 0) (!bitOf alpha ℓ) = half (f.node ℓ 0) (!bitOf alpha ℓ)
  keep : ∀ ℓ < e.bits, lowBit (half (f'.node ℓ 0) (bitOf alpha ℓ)) = lowBit (half (f.node ℓ 0) (bitOf alpha ℓ))
  conv : ∀ ℓ < e.bits, ∀ i, 16 ≤ i → f'.node ℓ 1 i = f.node ℓ 1 i

variable {e} {alpha : List Bool} {rand rand' : Bytes} {f f' : Fresh}

theorem Env.Alike.same (h : e.Alike alpha rand f rand' f') (P : Prims) (k : ℕ) :
    (e.itree P k alpha rand f).Same e.bits (e.itree P k alpha rand' f') :=
  ⟨rfl, rfl, rfl, h.key, h.lose, h.keep⟩

theorem Env.Alike.rep (h : e.Alike alpha rand f rand' f') (P : Prims) (k : ℕ) :
    e.irep P k alpha rand' f' = e.irep P k alpha rand f := by
  have hp : ∀ s, e.probe P k alpha rand' s = e.probe P k alpha rand s := by
    intro s; unfold Env.probe; rw [h.key, h.seed]
  have hs : e.ishard P k alpha rand' f' = e.ishard P k alpha rand f := by
    unfold Env.ishard
    rw [h.sh, h.ci, h.cl]
    have h1 : (fun j => if j = e.b then Spec.corrInnerStream P (seedOf rand' j) e.ctx (e.nonces k) j else f.ci) =
        fun j => if j = e.b then Spec.corrInnerStream P (seedOf rand j) e.ctx (e.nonces k) j else f.ci := by
      funext j
      split
      · rename_i hj; rw [hj, h.seed]
      · rfl
    have h2 : (fun j => if j = e.b then Spec.corrLeafStream P (seedOf rand' j) e.ctx (e.nonces k) j else f.cl) =
        fun j => if j = e.b then Spec.corrLeafStream P (seedOf rand j) e.ctx (e.nonces k) j else f.cl := by
      funext j
      split
      · rename_i hj; rw [hj, h.seed]
      · rfl
    rw [h1, h2]
    congr 1
    funext ks kl
    exact (h.same P k).pub (fun ℓ hl i hi => h.conv ℓ hl i hi) _ _
  unfold Env.irep
  rw [hs]
  congr 1
  funext s
  exact hp s

theorem Env.Alike.pathCells (h : e.Alike alpha rand f rand' f') (P : Prims) (k : ℕ) (p : ℕ → Bool) :
    e.pathCells (e.itree P k alpha rand' f') k p = e.pathCells (e.itree P k alpha rand f) k p := by
  have hs := h.same P k
  have hw : ∀ ℓ < e.bits, (e.itree P k alpha rand' f').cs ℓ = (e.itree P k alpha rand f).cs ℓ ∧
      (e.itree P k alpha rand' f').cc ℓ = (e.itree P k alpha rand f).cc ℓ ∧ p ℓ = p ℓ := fun ℓ hl =>
    ⟨(hs.level hl (hs.st ℓ hl.le).1 (hs.st ℓ hl.le).2).1, (hs.level hl (hs.st ℓ hl.le).1 (hs.st ℓ hl.le).2).2.1, rfl⟩
  unfold Env.pathCells
  ext c
  refine exists_congr fun ℓ => and_congr_right fun hl => exists_congr fun j => and_congr_right fun _ => ?_
  rw [hs.b, hs.keyb, hs.Sb, path_congr hw ℓ hl.le, kid_congr hw hl]

end

/-! ### The action -/

/-- The two purposes of the seed for the correlated randomness belong together. -/
def grp {bits : ℕ} : Lab bits → Lab bits
  | .inl 2 => .inl 1
  | l => l

section
variable (e : Env)

def Env.actRand (d : Bytes) (rand : Bytes) : Lab e.bits → Bytes
  | .inl 0 => mixAt 96 d rand
  | .inl _ => mixAt (32 + 32 * (1 - e.b)) d rand
  | .inr (ℓ, u) => if (ℓ : ℕ) = 0 ∧ (u : ℕ) = 0 then mixAt (16 * (1 - e.b)) d rand else rand

/-- The mask for the stream of a node -/
def Env.actNode (alpha : List Bool) (d : Bytes) (ℓ' u' : ℕ) : Lab e.bits → ℕ → UInt8
  | .inl _, _ => 0
  | .inr (ℓ, u), i =>
    if (u : ℕ) = 0 then (if (ℓ : ℕ) = ℓ' + 1 ∧ u' = 1 then shiftB 0 d i else 0)
    else (if ℓ' = ℓ ∧ u' = 0 then shiftB (if bitOf alpha ℓ then 16 else 0) d i else 0)

def Env.actFresh (alpha : List Bool) (d : Bytes) (f : Fresh) (g : Lab e.bits) : Fresh where
  sh := f.sh
  ci := f.ci
  cl := f.cl
  node ℓ' u' i := f.node ℓ' u' i ^^^ e.actNode alpha d ℓ' u' g i

theorem zero_mask (s : Str) : (fun i => s i ^^^ (0 : UInt8)) = s := by
  funext i; exact UInt8.xor_zero

variable {e} (he : e.Ok) {alpha : List Bool} {rand : Bytes} {f : Fresh} {d : Bytes} (hd : d.length = 16) (hl : lowBit d = false)
include he hd hl

theorem Env.act_alike (g : Lab e.bits) : e.Alike alpha rand f (e.actRand d rand g) (e.actFresh alpha d f g) := by
  have hb := he.b
  refine ⟨?_, ?_, rfl, rfl, rfl, ?_, ?_, ?_⟩
  · match g with
    | .inl 0 => exact slice_mixAt_off _ (by omega)
    | .inl 1 => exact slice_mixAt_off _ (by omega)
    | .inl 2 => exact slice_mixAt_off _ (by omega)
    | .inr (ℓ, u) =>
      show keyOf (ite _ _ _) _ = _
      split
      · exact slice_mixAt_off _ (by omega)
      · rfl
  · match g with
    | .inl 0 => exact slice_mixAt_off _ (by omega)
    | .inl 1 => exact slice_mixAt_off _ (by omega)
    | .inl 2 => exact slice_mixAt_off _ (by omega)
    | .inr (ℓ, u) =>
      show seedOf (ite _ _ _) _ = _
      split
      · exact slice_mixAt_off _ (by omega)
      · rfl
  · intro ℓ' hl'
    match g with
    | .inl _ =>
      show half (fun i => f.node ℓ' 0 i ^^^ 0) _ = _
      rw [zero_mask]
    | .inr (ℓ, u) =>
      show half (fun i => f.node ℓ' 0 i ^^^ (if (u : ℕ) = 0 then _ else _)) _ = _
      by_cases hu : (u : ℕ) = 0
      · simp only [if_pos hu, show ¬ ((ℓ : ℕ) = ℓ' + 1 ∧ 0 = 1) by omega, if_false]
        rw [zero_mask]
      · by_cases h2 : ℓ' = (ℓ : ℕ)
        · simp only [if_neg hu, h2, and_self, if_true]
          unfold half
          refine bytesAt_mix_off _ ?_
          cases bitOf alpha ℓ <;> simp [hd]
        · simp only [if_neg hu, h2, false_and, if_false]
          rw [zero_mask]
  · intro ℓ' hl'
    match g with
    | .inl _ =>
      show lowBit (half (fun i => f.node ℓ' 0 i ^^^ 0) _) = _
      rw [zero_mask]
    | .inr (ℓ, u) =>
      show lowBit (half (fun i => f.node ℓ' 0 i ^^^ (if (u : ℕ) = 0 then _ else _)) _) = _
      by_cases hu : (u : ℕ) = 0
      · simp only [if_pos hu, show ¬ ((ℓ : ℕ) = ℓ' + 1 ∧ 0 = 1) by omega, if_false]
        rw [zero_mask]
      · by_cases h2 : ℓ' = (ℓ : ℕ)
        · simp only [if_neg hu, h2, and_self, if_true]
          unfold half
          rw [bytesAt_mix, mix_lowBit hl]
        · simp only [if_neg hu, h2, false_and, if_false]
          rw [zero_mask]
  · intro ℓ' hl' i hi
    match g with
    | .inl _ => exact UInt8.xor_zero
    | .inr (ℓ, u) =>
      show f.node ℓ' 1 i ^^^ (if (u : ℕ) = 0 then _ else _) = _
      split
      · split
        · rw [shiftB_zero (by omega), UInt8.xor_zero]
        · exact UInt8.xor_zero
      · rw [if_neg (by omega), UInt8.xor_zero]

omit he hd hl in
theorem mix_kidSeed {s s' : Str} {t bit : Bool} {cs : Bytes} (hl : lowBit d = false) (h : half s' bit = mix d (half s bit)) :
    kidSeed s' t bit cs = mix d (kidSeed s t bit cs) := by
  unfold kidSeed
  rw [h, mix_clearBit hl]
  split
  · exact mix_xor
  · rfl

/-- The effect on the secrets -/
theorem Env.act_seed (P : Prims) (k : ℕ) (g l : Lab e.bits) :
    e.labSeed (e.itree P k alpha (e.actRand d rand g) (e.actFresh alpha d f g)) (e.actRand d rand g) l =
      if grp l = grp g then mix d (e.labSeed (e.itree P k alpha rand f) rand l) else e.labSeed (e.itree P k alpha rand f) rand l := by
  have hb := he.b
  have hal := Env.act_alike (alpha := alpha) (rand := rand) (f := f) he hd hl g
  match l with
  | .inl 0 =>
    show ssOf (e.actRand d rand g) = if _ then mix d (ssOf rand) else ssOf rand
    match g with
    | .inl 0 => exact slice_mixAt _ _ _ _
    | .inl 1 => exact slice_mixAt_off _ (by omega)
    | .inl 2 => exact slice_mixAt_off _ (by omega)
    | .inr (ℓ, u) =>
      rw [if_neg (by simp [grp])]
      show ssOf (ite _ _ _) = _
      split
      · exact slice_mixAt_off _ (by omega)
      · rfl
  | .inl 1 =>
    show seedOf (e.actRand d rand g) (1 - e.b) = if _ then mix d (seedOf rand (1 - e.b)) else seedOf rand (1 - e.b)
    match g with
    | .inl 0 => exact slice_mixAt_off _ (by omega)
    | .inl 1 => exact slice_mixAt _ _ _ _
    | .inl 2 => exact slice_mixAt _ _ _ _
    | .inr (ℓ, u) =>
      rw [if_neg (by simp [grp])]
      show seedOf (ite _ _ _) _ = _
      split
      · exact slice_mixAt_off _ (by omega)
      · rfl
  | .inl 2 =>
    show seedOf (e.actRand d rand g) (1 - e.b) = if _ then mix d (seedOf rand (1 - e.b)) else seedOf rand (1 - e.b)
    match g with
    | .inl 0 => exact slice_mixAt_off _ (by omega)
    | .inl 1 => exact slice_mixAt _ _ _ _
    | .inl 2 => exact slice_mixAt _ _ _ _
    | .inr (ℓ, u) =>
      rw [if_neg (by simp [grp])]
      show seedOf (ite _ _ _) _ = _
      split
      · exact slice_mixAt_off _ (by omega)
      · rfl
  | .inr (⟨ℓ', hl'⟩, u') =>
    have hg : ∀ (ℓ : Fin e.bits) (u : Fin 2), (grp (Sum.inr (⟨ℓ', hl'⟩, u') : Lab e.bits) = grp (Sum.inr (ℓ, u))) ↔
        (ℓ' = (ℓ : ℕ) ∧ (u' : ℕ) = u) := by
      intro ℓ u
      show (Sum.inr (⟨ℓ', hl'⟩, u') : Lab e.bits) = Sum.inr (ℓ, u) ↔ _
      rw [Sum.inr.injEq, Prod.mk.injEq, Fin.ext_iff, Fin.ext_iff]
    show Tree.seedAt _ ℓ' u' = if _ then mix d (Tree.seedAt _ ℓ' u') else Tree.seedAt _ ℓ' u'
    by_cases hu' : (u' : ℕ) = 0
    · unfold Tree.seedAt
      rw [if_pos hu', if_pos hu']
      cases ℓ' with
      | zero =>
        show keyOf (e.actRand d rand g) (1 - e.b) = if _ then mix d (keyOf rand (1 - e.b)) else keyOf rand (1 - e.b)
        match g with
        | .inl 0 => exact slice_mixAt_off _ (by omega)
        | .inl 1 => exact slice_mixAt_off _ (by omega)
        | .inl 2 => exact slice_mixAt_off _ (by omega)
        | .inr (ℓ, u) =>
          show keyOf (ite _ _ _) _ = _
          by_cases h0 : (ℓ : ℕ) = 0 ∧ (u : ℕ) = 0
          · rw [if_pos h0, if_pos ((hg ℓ u).2 (by omega))]
            exact slice_mixAt _ _ _ _
          · rw [if_neg h0, if_neg (fun h => h0 (by have := (hg ℓ u).1 h; omega))]
      | succ ℓ' =>
        show bytesAt ((e.actFresh alpha d f g).node ℓ' 1) 0 16 = if _ then mix d (bytesAt (f.node ℓ' 1) 0 16) else bytesAt (f.node ℓ' 1) 0 16
        match g with
        | .inl 0 | .inl 1 | .inl 2 =>
          rw [if_neg (by simp [grp])]
          show bytesAt (fun i => f.node ℓ' 1 i ^^^ 0) 0 16 = _
          rw [zero_mask]
        | .inr (ℓ, u) =>
          show bytesAt (fun i => f.node ℓ' 1 i ^^^ (if (u : ℕ) = 0 then _ else _)) 0 16 = _
          by_cases hu : (u : ℕ) = 0
          · by_cases h2 : (ℓ : ℕ) = ℓ' + 1
            · simp only [if_pos hu, h2, and_self, if_true]
              rw [if_pos ((hg ℓ u).2 (by omega))]
              exact bytesAt_mix _ _ _ _
            · simp only [if_pos hu, h2, false_and, if_false]
              rw [zero_mask, if_neg (fun h => h2 (by have := (hg ℓ u).1 h; omega))]
          · simp only [if_neg hu, show ¬ (ℓ' = (ℓ : ℕ) ∧ 1 = 0) by omega, if_false]
            rw [zero_mask, if_neg (fun h => hu (by have := (hg ℓ u).1 h; omega))]
    · unfold Tree.seedAt
      rw [if_neg hu', if_neg hu']
      have hs := hal.same P k
      obtain ⟨s1, s2⟩ := hs.st ℓ' hl'.le
      obtain ⟨c1, -⟩ := hs.level hl' s1 s2
      unfold Tree.xj
      rw [s2, c1]
      show kidSeed ((e.actFresh alpha d f g).node ℓ' 0) _ (bitOf alpha ℓ') _ =
        if _ then mix d (kidSeed (f.node ℓ' 0) _ (bitOf alpha ℓ') _) else kidSeed (f.node ℓ' 0) _ (bitOf alpha ℓ') _
      match g with
      | .inl 0 | .inl 1 | .inl 2 =>
        rw [if_neg (by simp [grp])]
        show kidSeed (fun i => f.node ℓ' 0 i ^^^ 0) _ _ _ = _
        rw [zero_mask]
      | .inr (ℓ, u) =>
        show kidSeed (fun i => f.node ℓ' 0 i ^^^ (if (u : ℕ) = 0 then _ else _)) _ _ _ = _
        by_cases hu : (u : ℕ) = 0
        · simp only [if_pos hu, show ¬ ((ℓ : ℕ) = ℓ' + 1 ∧ 0 = 1) by omega, if_false]
          rw [zero_mask, if_neg (fun h => hu' (by have := (hg ℓ u).1 h; omega))]
        · by_cases h2 : ℓ' = (ℓ : ℕ)
          · rw [if_pos ((hg ℓ u).2 ⟨h2, by have := u.2; have := u'.2; omega⟩)]
            refine mix_kidSeed hl ?_
            subst h2
            simp only [if_neg hu, and_self, if_true]
            unfold half
            rw [bytesAt_mix]
          · simp only [if_neg hu, h2, false_and, if_false]
            rw [zero_mask, if_neg (fun h => h2 ((hg ℓ u).1 h).1)]

end
end Vdaf.PO
