import Verif.Proofs.PoplarRe

/-! The streams of a report for another measurement that lead to the same public share. -/

set_option linter.unusedSectionVars false

namespace Vdaf.PO
open Spec (bytesAt clearBit lowBit poplarIdpf levelKind sample sumAB)

/-! ### The public share determines what is not free. -/

def got {F : Type} (r : Res (List F × ℕ)) : List F × ℕ := match r with | .ok r => r | .error _ => ([], 0)

def sgn (b : ℕ) (c : Bool) : Bool := if b = 0 then !c else c

section
variable (bits fuel b : ℕ) (Sb : Source) (keyb : Bytes) (pub : List CorrectionWord) (alpha : List Bool)

/-- The corrupted Aggregator's nodes along `alpha` -/
def pnode (ℓ : ℕ) : Bytes × Bool := path Sb (csOf pub) (ccOf pub) keyb (decide (b ≠ 0)) (bitOf alpha) ℓ
def pkid (ℓ : ℕ) : Bytes := kid Sb (csOf pub) (ccOf pub) keyb (decide (b ≠ 0)) (bitOf alpha) ℓ
def pE (ℓ : ℕ) : Str := Sb ℓ 0 (pnode b Sb keyb pub alpha ℓ).1
def pw (ℓ : ℕ) : List (Fk (levelKind bits ℓ)) := (got (sampS (Fk (levelKind bits ℓ)) (Sb ℓ 1 (pkid b Sb keyb pub alpha ℓ)) fuel 16 2)).1

/-- The values of the corrupted Aggregator along `alpha` are sampled. -/
def PwOk : Prop := ∀ ℓ < bits, ∃ r, sampS (Fk (levelKind bits ℓ)) (Sb ℓ 1 (pkid b Sb keyb pub alpha ℓ)) fuel 16 2 = .ok r

structure PubOk : Prop where
  len : pub.length = bits
  get : ∀ ℓ < bits, pub[ℓ]? = some ⟨csOf pub ℓ, ccOf pub ℓ, ⟨levelKind bits ℓ, vwOf pub ℓ _⟩⟩
  cs : ∀ ℓ < bits, (csOf pub ℓ).length = 16 ∧ lowBit (csOf pub ℓ) = false
  vw : ∀ ℓ < bits, (vwOf pub ℓ (levelKind bits ℓ)).length = 2

structure Fits (z : Z bits) : Prop where
  e : ∀ ℓ < bits, ∀ bit, z.e ℓ bit = mkHalf (pE b Sb keyb pub alpha ℓ) (csOf pub ℓ) (ccOf pub ℓ) (bitOf alpha ℓ)
    (clearBit (z.e ℓ (bitOf alpha ℓ))) bit
  v : ∀ ℓ < bits, z.v ℓ = solveValue b (sgn b (pnode b Sb keyb pub alpha (ℓ + 1)).2) (gBeta bits z.ks z.kl ℓ)
    (pw bits fuel b Sb keyb pub alpha ℓ) (vwOf pub ℓ _)

def tr (keyj : Bytes) (f : Fresh) : Tree := ⟨b, bitOf alpha, Sb, fun ℓ u _ => f.node ℓ u, keyb, keyj⟩

end

section
variable {bits fuel b : ℕ} {Sb : Source} {keyb : Bytes} {pub : List CorrectionWord} {alpha : List Bool} {keyj : Bytes} {f : Fresh}

theorem tree_follow (h : ∀ ℓ < bits, cwSeed (pE b Sb keyb pub alpha ℓ) (f.node ℓ 0) (bitOf alpha ℓ) = csOf pub ℓ ∧
      cwCtrl (pE b Sb keyb pub alpha ℓ) (f.node ℓ 0) (bitOf alpha ℓ) = ccOf pub ℓ) :
    (∀ ℓ ≤ bits, (((tr b Sb keyb alpha keyj f).st ℓ).1, ((tr b Sb keyb alpha keyj f).st ℓ).2.1) = pnode b Sb keyb pub alpha ℓ) ∧
    ∀ ℓ < bits, (tr b Sb keyb alpha keyj f).cs ℓ = csOf pub ℓ ∧ (tr b Sb keyb alpha keyj f).cc ℓ = ccOf pub ℓ ∧
      (tr b Sb keyb alpha keyj f).xb ℓ = pkid b Sb keyb pub alpha ℓ := by
  have step : ∀ ℓ < bits, (((tr b Sb keyb alpha keyj f).st ℓ).1, ((tr b Sb keyb alpha keyj f).st ℓ).2.1) = pnode b Sb keyb pub alpha ℓ →
      ((tr b Sb keyb alpha keyj f).cs ℓ = csOf pub ℓ ∧ (tr b Sb keyb alpha keyj f).cc ℓ = ccOf pub ℓ ∧
      (tr b Sb keyb alpha keyj f).xb ℓ = pkid b Sb keyb pub alpha ℓ) ∧
      (((tr b Sb keyb alpha keyj f).st (ℓ + 1)).1, ((tr b Sb keyb alpha keyj f).st (ℓ + 1)).2.1) = pnode b Sb keyb pub alpha (ℓ + 1) := by
    intro ℓ hl ih
    obtain ⟨h1, h2⟩ := h ℓ hl
    have hE : (tr b Sb keyb alpha keyj f).E ℓ = pE b Sb keyb pub alpha ℓ := by
      unfold Tree.E pE
      rw [← ih]
      rfl
    have hcs : (tr b Sb keyb alpha keyj f).cs ℓ = csOf pub ℓ := by
      unfold Tree.cs; rw [hE]; exact h1
    have hcc : (tr b Sb keyb alpha keyj f).cc ℓ = ccOf pub ℓ := by
      unfold Tree.cc; rw [hE]; exact h2
    have hxb : (tr b Sb keyb alpha keyj f).xb ℓ = pkid b Sb keyb pub alpha ℓ := by
      unfold Tree.xb pkid kid
      rw [hE, hcs]
      unfold pnode at ih
      rw [← ih]
      unfold pE pnode
      rw [← ih]
      rfl
    refine ⟨⟨hcs, hcc, hxb⟩, ?_⟩
    rw [Tree.st_succ, hxb, hcc, hE]
    unfold pnode
    rw [path_succ]
    unfold pE pnode
    unfold pnode at ih
    rw [← ih]
    rfl
  have all : ∀ ℓ ≤ bits, (((tr b Sb keyb alpha keyj f).st ℓ).1, ((tr b Sb keyb alpha keyj f).st ℓ).2.1) = pnode b Sb keyb pub alpha ℓ := by
    intro ℓ
    induction ℓ with
    | zero => exact fun _ => rfl
    | succ ℓ ih => exact fun hl => (step ℓ hl (ih (by omega))).2
  exact ⟨all, fun ℓ hl => (step ℓ hl (all ℓ hl.le)).1⟩

variable {z : Z bits} {p1 p2 : ℕ}

theorem gBeta_length (ks : List (Fk .inner)) (kl : List (Fk .leaf)) (ℓ : ℕ) : (gBeta bits ks kl ℓ).length = 2 := rfl

theorem pw_length (h : PwOk bits fuel b Sb keyb pub alpha) {ℓ : ℕ} (hl : ℓ < bits) : (pw bits fuel b Sb keyb pub alpha ℓ).length = 2 := by
  obtain ⟨⟨v, p⟩, hr⟩ := h ℓ hl
  unfold pw
  rw [hr]
  exact (sampS_ok hr).1

theorem pub_fits (hg : Got bits fuel f z p1 p2)
    (h : (tr b Sb keyb alpha keyj f).pub fuel bits (gBeta bits z.ks z.kl) = .ok pub) :
    PubOk bits pub ∧ Fits bits fuel b Sb keyb pub alpha z ∧ PwOk bits fuel b Sb keyb pub alpha := by
  have hw := fun ℓ hl => Tree.pub_words (ℓ := ℓ) h hl
  have hE : ∀ ℓ < bits, (tr b Sb keyb alpha keyj f).E ℓ = pE b Sb keyb pub alpha ℓ := by
    intro ℓ hl
    have h1 : ((tr b Sb keyb alpha keyj f).st ℓ).1 = (pnode b Sb keyb pub alpha ℓ).1 := by
      have h2 := Tree.st_path (tr b Sb keyb alpha keyj f) ℓ
      have h3 := Tree.pub_path h hl.le (bitOf alpha)
      have h4 : pnode b Sb keyb pub alpha ℓ = _ := h3.trans h2
      rw [h4]
    unfold Tree.E pE
    rw [h1]
    rfl
  obtain ⟨f1, f2⟩ := tree_follow (bits := bits) (b := b) (Sb := Sb) (keyb := keyb) (pub := pub) (alpha := alpha) (keyj := keyj) (f := f) (by
    intro ℓ hl
    obtain ⟨w1, w2, -⟩ := hw ℓ hl
    rw [w1, w2, ← hE ℓ hl]
    exact ⟨rfl, rfl⟩)
  have hpw : PwOk bits fuel b Sb keyb pub alpha := by
    intro ℓ hl
    obtain ⟨-, -, wb, wj, h1, -⟩ := hw ℓ hl
    rw [(f2 ℓ hl).2.2] at h1
    exact ⟨wb, h1⟩
  refine ⟨⟨(Tree.pub_ok.1 h).1, ?_, ?_, ?_⟩, ⟨?_, ?_⟩, hpw⟩
  · intro ℓ hl
    obtain ⟨cw, h1, h2⟩ := (Tree.pub_ok.1 h).2 ℓ hl
    obtain ⟨wb, wj, h3, h4, rfl⟩ := Tree.word_ok.1 h2
    rw [h1]
    unfold csOf ccOf vwOf
    rw [h1]
    dsimp only
    rw [castVec_self]
  · intro ℓ hl
    rw [(hw ℓ hl).1]
    exact ⟨cwSeed_length _ _ _, lowBit_xor (lowBit_clearBit _) (lowBit_clearBit _) (by rw [clearBit_length, clearBit_length, half_length, half_length])⟩
  · intro ℓ hl
    obtain ⟨-, -, wb, wj, h1, h2, h3⟩ := hw ℓ hl
    rw [h3]
    exact wordVal_length (gBeta_length _ _ _) (sampS_ok h1).1 (sampS_ok h2).1
  · intro ℓ hl bit
    rw [← hg.e ℓ hl, ← hg.e ℓ hl, (hw ℓ hl).1, (hw ℓ hl).2.1, ← hE ℓ hl]
    exact mkHalf_of bit
  · intro ℓ hl
    obtain ⟨-, -, wb, wj, h1, h2, h3⟩ := hw ℓ hl
    obtain ⟨p, hv⟩ := hg.v ℓ hl
    have hz : wj.1 = z.v ℓ := by
      have : sampS (Fk (levelKind bits ℓ)) (f.node ℓ 1) fuel 16 2 = .ok wj := h2
      rw [this] at hv
      rw [Except.ok.inj hv]
    have hb : wb.1 = pw bits fuel b Sb keyb pub alpha ℓ := by
      unfold pw
      rw [← (f2 ℓ hl).2.2]
      rw [show sampS (Fk (levelKind bits ℓ)) (Sb ℓ 1 ((tr b Sb keyb alpha keyj f).xb ℓ)) fuel 16 2 = .ok wb from h1]
      rfl
    have hc : ((tr b Sb keyb alpha keyj f).st (ℓ + 1)).2.1 = (pnode b Sb keyb pub alpha (ℓ + 1)).2 := by
      rw [← f1 (ℓ + 1) hl]
    rw [hz, hb, hc] at h3
    have hl2 := (sampS_ok hv).1
    exact (solveValue_iff (gBeta_length _ _ _) (pw_length hpw hl) (by rw [h3]; exact wordVal_length (gBeta_length _ _ _) (pw_length hpw hl) hl2)
      hl2).1 h3

theorem fits_pub (hg : Got bits fuel f z p1 p2) (hp : PubOk bits pub) (hf : Fits bits fuel b Sb keyb pub alpha z)
    (hpw : PwOk bits fuel b Sb keyb pub alpha) :
    (tr b Sb keyb alpha keyj f).pub fuel bits (gBeta bits z.ks z.kl) = .ok pub := by
  have hz := hg.sized
  obtain ⟨f1, f2⟩ := tree_follow (bits := bits) (b := b) (Sb := Sb) (keyb := keyb) (pub := pub) (alpha := alpha) (keyj := keyj) (f := f) (by
    intro ℓ hl
    obtain ⟨a1, a2⟩ := hp.cs ℓ hl
    have := mkHalf_spec (e := f.node ℓ 0) (E := pE b Sb keyb pub alpha ℓ) (cc := ccOf pub ℓ) (a := bitOf alpha ℓ) a1 a2
      (c := clearBit (z.e ℓ (bitOf alpha ℓ))) (by rw [clearBit_length, hz.e ℓ hl]) (lowBit_clearBit _)
      (fun bit => (hg.e ℓ hl bit).trans (hf.e ℓ hl bit))
    exact ⟨this.1, this.2.1⟩)
  refine Tree.pub_ok.2 ⟨hp.len, fun ℓ hl => ⟨_, hp.get ℓ hl, Tree.word_ok.2 ?_⟩⟩
  obtain ⟨wb, hwb⟩ := hpw ℓ hl
  obtain ⟨p, hv⟩ := hg.v ℓ hl
  have hb : wb.1 = pw bits fuel b Sb keyb pub alpha ℓ := by unfold pw; rw [hwb]; rfl
  refine ⟨wb, (z.v ℓ, p), ?_, hv, ?_⟩
  · rw [(f2 ℓ hl).2.2]; exact hwb
  · rw [(f2 ℓ hl).1, (f2 ℓ hl).2.1]
    congr 2
    have hc : ((tr b Sb keyb alpha keyj f).st (ℓ + 1)).2.1 = (pnode b Sb keyb pub alpha (ℓ + 1)).2 := by
      rw [← f1 (ℓ + 1) hl]
    rw [hc, hb]
    exact (solveValue_iff (gBeta_length _ _ _) (pw_length hpw hl) (hp.vw ℓ hl) (hz.v ℓ hl)).2 (hf.v ℓ hl)

end


/-! ### Other values with the same public share -/

section
variable (bits fuel : ℕ)

def zOf (f : Fresh) : Z bits where
  ks := (got (sampS (Fk .inner) f.sh fuel 0 (bits - 1))).1
  kl := (got (sampS (Fk .leaf) f.sh fuel (got (sampS (Fk .inner) f.sh fuel 0 (bits - 1))).2 1)).1
  u := (got (sampS (Fk .inner) f.ci fuel 0 (3 * (bits - 1)))).1
  w := (got (sampS (Fk .leaf) f.cl fuel 0 3)).1
  e ℓ bit := half (f.node ℓ 0) bit
  v ℓ := (got (sampS (Fk (levelKind bits ℓ)) (f.node ℓ 1) fuel 16 2)).1

def p1Of (f : Fresh) : ℕ := (got (sampS (Fk .inner) f.sh fuel 0 (bits - 1))).2

theorem Got.eq {bits fuel : ℕ} {f : Fresh} {z : Z bits} {p1 p2 : ℕ} (h : Got bits fuel f z p1 p2) :
    p1Of bits fuel f = p1 ∧ (zOf bits fuel f).ks = z.ks ∧ (zOf bits fuel f).kl = z.kl ∧ (zOf bits fuel f).u = z.u ∧
      (zOf bits fuel f).w = z.w ∧ (∀ ℓ < bits, ∀ bit, (zOf bits fuel f).e ℓ bit = z.e ℓ bit) ∧
      (∀ ℓ < bits, (zOf bits fuel f).v ℓ = z.v ℓ) := by
  obtain ⟨p, hu⟩ := h.u
  obtain ⟨q, hw⟩ := h.w
  have e1 : p1Of bits fuel f = p1 := by unfold p1Of; rw [h.ks]; rfl
  have e1' : (got (sampS (Fk .inner) f.sh fuel 0 (bits - 1))).2 = p1 := e1
  refine ⟨e1, ?_, ?_, ?_, ?_, ?_, ?_⟩
  · unfold zOf; dsimp only; rw [h.ks]; rfl
  · unfold zOf; dsimp only; rw [e1', h.kl]; rfl
  · unfold zOf; dsimp only; rw [hu]; rfl
  · unfold zOf; dsimp only; rw [hw]; rfl
  · exact h.e
  · intro ℓ hl
    obtain ⟨r, hv⟩ := h.v ℓ hl
    unfold zOf; dsimp only; rw [hv]; rfl

def comp3 {F : Type} (t : F × F × F) (i : ℕ) : F := if i = 0 then t.1 else if i = 1 then t.2.1 else t.2.2

variable (b : ℕ) (Sb : Source) (keyb : Bytes) (pub : List CorrectionWord) (alpha alpha' : List Bool)
  (X X' : (ℓ : ℕ) → (κ : Kind) → Fk κ)

/-- The scalars of a level for the other measurement -/
def sc {bits : ℕ} (z : Z bits) (ℓ : ℕ) (κ : Kind) : Scalars κ :=
  shiftScalars (X ℓ κ) (X' ℓ κ) (kAt z.ks z.kl ℓ κ, triAt z.u z.w ℓ κ, (0, 0))

def nks (z : Z bits) : List (Fk .inner) := tab (bits - 1) fun ℓ => (sc X X' z ℓ .inner).1
def nkl (z : Z bits) : List (Fk .leaf) := [(sc X X' z (bits - 1) .leaf).1]

def zNew (z : Z bits) : Z bits where
  ks := nks bits X X' z
  kl := nkl bits X X' z
  u := tab (3 * (bits - 1)) fun i => comp3 (sc X X' z (i / 3) .inner).2.1 (i % 3)
  w := tab 3 fun i => comp3 (sc X X' z (bits - 1) .leaf).2.1 i
  e ℓ bit := mkHalf (pE b Sb keyb pub alpha' ℓ) (csOf pub ℓ) (ccOf pub ℓ) (bitOf alpha' ℓ) (clearBit (z.e ℓ (bitOf alpha ℓ))) bit
  v ℓ := solveValue b (sgn b (pnode b Sb keyb pub alpha' (ℓ + 1)).2) (gBeta bits (nks bits X X' z) (nkl bits X X' z) ℓ)
    (pw bits fuel b Sb keyb pub alpha' ℓ) (vwOf pub ℓ _)

noncomputable def tau (f : Fresh) : Fresh :=
  Re bits fuel (p1Of bits fuel f) (zNew bits fuel b Sb keyb pub alpha alpha' X X' (zOf bits fuel f)) f

end

section
variable {bits fuel b : ℕ} {Sb : Source} {keyb : Bytes} {pub : List CorrectionWord} {alpha alpha' : List Bool}
  {X X' : (ℓ : ℕ) → (κ : Kind) → Fk κ}

theorem levelKind_cases {ℓ : ℕ} (hl : ℓ < bits) : (levelKind bits ℓ = .inner ∧ ℓ < bits - 1) ∨ (levelKind bits ℓ = .leaf ∧ ℓ = bits - 1) := by
  by_cases hi : ℓ < bits - 1
  · exact .inl ⟨Idpf.currentField_inner (I := poplarIdpf bits) hi, hi⟩
  · exact .inr ⟨Idpf.currentField_leaf (I := poplarIdpf bits) hi, by omega⟩

theorem zNew_scalars (z : Z bits) {ℓ : ℕ} (hl : ℓ < bits) {κ : Kind} (hκ : levelKind bits ℓ = κ) :
    kAt (zNew bits fuel b Sb keyb pub alpha alpha' X X' z).ks (zNew bits fuel b Sb keyb pub alpha alpha' X X' z).kl ℓ κ =
      (sc X X' z ℓ κ).1 ∧
    triAt (zNew bits fuel b Sb keyb pub alpha alpha' X X' z).u (zNew bits fuel b Sb keyb pub alpha alpha' X X' z).w ℓ κ =
      (sc X X' z ℓ κ).2.1 := by
  rcases levelKind_cases hl with ⟨h1, h2⟩ | ⟨h1, rfl⟩
  · obtain rfl : κ = .inner := hκ.symm.trans h1
    refine ⟨?_, ?_⟩
    · show coef (F := Fk .inner) (tab (bits - 1) _) ℓ = _
      rw [coef_tab, if_pos h2]
    · show (coef (F := Fk .inner) (tab (3 * (bits - 1)) _) (3 * ℓ), coef (F := Fk .inner) (tab (3 * (bits - 1)) _) (3 * ℓ + 1),
        coef (F := Fk .inner) (tab (3 * (bits - 1)) _) (3 * ℓ + 2)) = _
      rw [coef_tab, coef_tab, coef_tab, if_pos (by omega), if_pos (by omega), if_pos (by omega)]
      rw [show 3 * ℓ / 3 = ℓ by omega, show (3 * ℓ + 1) / 3 = ℓ by omega, show (3 * ℓ + 2) / 3 = ℓ by omega,
        show 3 * ℓ % 3 = 0 by omega, show (3 * ℓ + 1) % 3 = 1 by omega, show (3 * ℓ + 2) % 3 = 2 by omega]
      rfl
  · obtain rfl : κ = .leaf := hκ.symm.trans h1
    refine ⟨rfl, ?_⟩
    show (coef (F := Fk .leaf) (tab 3 _) 0, coef (F := Fk .leaf) (tab 3 _) 1, coef (F := Fk .leaf) (tab 3 _) 2) = _
    rw [coef_tab, coef_tab, coef_tab]
    rfl

/-- The lists are determined by the scalars of the levels. -/
theorem scalars_lists (hb : 0 < bits) {z z' : Z bits} (hz : z.Sized) (hz' : z'.Sized)
    (h : ∀ ℓ < bits, ∀ κ, levelKind bits ℓ = κ → kAt z.ks z.kl ℓ κ = kAt z'.ks z'.kl ℓ κ ∧ triAt z.u z.w ℓ κ = triAt z'.u z'.w ℓ κ) :
    z.ks = z'.ks ∧ z.kl = z'.kl ∧ z.u = z'.u ∧ z.w = z'.w := by
  have ext : ∀ {κ : Kind} {l m : List (Fk κ)}, l.length = m.length → (∀ i < l.length, coef (F := Fk κ) l i = coef (F := Fk κ) m i) → l = m := by
    intro κ l m h1 h2
    refine List.ext_getElem h1 fun i h3 h4 => ?_
    have := h2 i h3
    rwa [coef_of_lt h3, coef_of_lt h4] at this
  have hL := h (bits - 1) (by omega) .leaf (Idpf.currentField_leaf (I := poplarIdpf bits) (by show ¬ bits - 1 < bits - 1; omega))
  have hI : ∀ ℓ < bits - 1, _ := fun ℓ hl => h ℓ (by omega) .inner (Idpf.currentField_inner (I := poplarIdpf bits) hl)
  obtain ⟨hL1, hL2⟩ := hL
  simp only [triAt, kAt, Prod.mk.injEq] at hL1 hL2 hI
  refine ⟨ext (hz.ks.trans hz'.ks.symm) fun i hi => (hI i (by rw [hz.ks] at hi; exact hi)).1,
    ext (hz.kl.trans hz'.kl.symm) fun i hi => ?_, ext (hz.u.trans hz'.u.symm) fun i hi => ?_,
    ext (hz.w.trans hz'.w.symm) fun i hi => ?_⟩
  · rw [hz.kl] at hi
    obtain rfl : i = 0 := by omega
    exact hL1
  · rw [hz.u] at hi
    have h1 := (hI (i / 3) (by omega)).2
    have h3 : i = 3 * (i / 3) ∨ i = 3 * (i / 3) + 1 ∨ i = 3 * (i / 3) + 2 := by omega
    rcases h3 with h3 | h3 | h3
    · rw [h3]; exact h1.1
    · rw [h3]; exact h1.2.1
    · rw [h3]; exact h1.2.2
  · rw [hz.w] at hi
    have h3 : i = 0 ∨ i = 1 ∨ i = 2 := by omega
    rcases h3 with rfl | rfl | rfl
    · exact hL2.1
    · exact hL2.2.1
    · exact hL2.2.2

theorem zNew_sized {z : Z bits} (hz : z.Sized) (hp : PubOk bits pub) (hpw : PwOk bits fuel b Sb keyb pub alpha') :
    (zNew bits fuel b Sb keyb pub alpha alpha' X X' z).Sized where
  ks := tab_length _ _
  kl := rfl
  u := tab_length _ _
  w := tab_length _ _
  e ℓ hl bit := mkHalf_length (by rw [clearBit_length, hz.e ℓ hl]) (hp.cs ℓ hl).1 bit
  v ℓ hl := solveValue_length (gBeta_length _ _ _) (pw_length hpw hl) (hp.vw ℓ hl)

theorem mkHalf_same {E : Str} {cs : Bytes} {cc : Bool × Bool} {a : Bool} {c : Bytes} (hc : lowBit c = false) :
    clearBit (mkHalf E cs cc a c a) = c := by
  unfold mkHalf
  rw [clearBit_putBit, if_pos rfl, clearBit_of_lowBit hc]

theorem zNew_fits {z : Z bits} : Fits bits fuel b Sb keyb pub alpha' (zNew bits fuel b Sb keyb pub alpha alpha' X X' z) where
  e ℓ hl bit := by
    show mkHalf _ _ _ _ _ _ = mkHalf _ _ _ _ (clearBit (mkHalf _ _ _ _ _ _)) _
    rw [mkHalf_same (lowBit_clearBit _)]
  v ℓ hl := rfl

theorem tau_got {f : Fresh} {p2 : ℕ} (hg : Got bits fuel f (zOf bits fuel f) (p1Of bits fuel f) p2) (hp : PubOk bits pub)
    (hpw : PwOk bits fuel b Sb keyb pub alpha') :
    Got bits fuel (tau bits fuel b Sb keyb pub alpha alpha' X X' f) (zNew bits fuel b Sb keyb pub alpha alpha' X X' (zOf bits fuel f))
      (p1Of bits fuel f) p2 ∧ Re bits fuel (p1Of bits fuel f) (zOf bits fuel f) (tau bits fuel b Sb keyb pub alpha alpha' X X' f) = f ∧
      ∀ i, p2 ≤ i → (tau bits fuel b Sb keyb pub alpha alpha' X X' f).sh i = f.sh i :=
  hg.re (zNew_sized hg.sized hp hpw)

theorem tau_inj (hb : 0 < bits) {f1 f2 : Fresh} {q1 q2 : ℕ} (hg1 : Got bits fuel f1 (zOf bits fuel f1) (p1Of bits fuel f1) q1)
    (hg2 : Got bits fuel f2 (zOf bits fuel f2) (p1Of bits fuel f2) q2) (hp : PubOk bits pub)
    (hpw : PwOk bits fuel b Sb keyb pub alpha') (hf1 : Fits bits fuel b Sb keyb pub alpha (zOf bits fuel f1))
    (hf2 : Fits bits fuel b Sb keyb pub alpha (zOf bits fuel f2))
    (h : tau bits fuel b Sb keyb pub alpha alpha' X X' f1 = tau bits fuel b Sb keyb pub alpha alpha' X X' f2) : f1 = f2 := by
  obtain ⟨a1, a2, -⟩ := tau_got (alpha := alpha) (X := X) (X' := X') hg1 hp hpw
  obtain ⟨b1, b2, -⟩ := tau_got (alpha := alpha) (X := X) (X' := X') hg2 hp hpw
  obtain ⟨c1, c2, c3, c4, c5, c6, c7⟩ := a1.eq
  rw [h] at c1 c2 c3 c4 c5 c6 c7
  obtain ⟨d1, d2, d3, d4, d5, d6, d7⟩ := b1.eq
  have hP : p1Of bits fuel f1 = p1Of bits fuel f2 := c1.symm.trans d1
  obtain ⟨s1, s2, s3, s4⟩ := scalars_lists hb hg1.sized hg2.sized (by
    intro ℓ hl κ hκ
    obtain ⟨x1, x2⟩ := zNew_scalars (fuel := fuel) (b := b) (Sb := Sb) (keyb := keyb) (pub := pub) (alpha := alpha) (alpha' := alpha')
      (X := X) (X' := X') (zOf bits fuel f1) hl hκ
    obtain ⟨y1, y2⟩ := zNew_scalars (fuel := fuel) (b := b) (Sb := Sb) (keyb := keyb) (pub := pub) (alpha := alpha) (alpha' := alpha')
      (X := X) (X' := X') (zOf bits fuel f2) hl hκ
    rw [← c2, d2, ← c3, d3, y1] at x1
    rw [← c4, d4, ← c5, d5, y2] at x2
    have := shiftScalars_inj (X ℓ κ) (X' ℓ κ) (a₁ := (kAt (zOf bits fuel f1).ks (zOf bits fuel f1).kl ℓ κ, triAt (zOf bits fuel f1).u
      (zOf bits fuel f1).w ℓ κ, (0, 0))) (a₂ := (kAt (zOf bits fuel f2).ks (zOf bits fuel f2).kl ℓ κ, triAt (zOf bits fuel f2).u
      (zOf bits fuel f2).w ℓ κ, (0, 0))) (Prod.ext x1.symm (Prod.ext x2.symm rfl))
    rw [Prod.mk.injEq, Prod.mk.injEq] at this
    exact ⟨this.1, this.2.1⟩)
  have he : ∀ ℓ < bits, ∀ bit, (zOf bits fuel f1).e ℓ bit = (zOf bits fuel f2).e ℓ bit := by
    intro ℓ hl bit
    rw [hf1.e ℓ hl bit, hf2.e ℓ hl bit]
    have h1 := (c6 ℓ hl (bitOf alpha' ℓ)).symm.trans (d6 ℓ hl (bitOf alpha' ℓ))
    have h2 := congrArg clearBit h1
    unfold zNew at h2
    dsimp only at h2
    rw [mkHalf_same (lowBit_clearBit _), mkHalf_same (lowBit_clearBit _)] at h2
    rw [h2]
  have hv : ∀ ℓ < bits, (zOf bits fuel f1).v ℓ = (zOf bits fuel f2).v ℓ := by
    intro ℓ hl
    rw [hf1.v ℓ hl, hf2.v ℓ hl, s1, s2]
  rw [← a2, ← b2, h, hP]
  exact Re_congr s1 s2 s3 s4 he hv

/-- The streams change at their beginning only. -/
theorem Got.beyond {f : Fresh} {z z' : Z bits} {p1 p2 N : ℕ} (h : Got bits fuel f z p1 p2) (hz : z'.Sized)
    (hN : 32 * fuel * (bits + 2) + 32 ≤ N) (l : Lab bits) {i : ℕ} (hi : N ≤ i) : (Re bits fuel p1 z' f).at l i = f.at l i := by
  have hs : ∀ κ, fuel * PyField.encSize (Fk κ) ≤ 32 * fuel := fun κ => by
    have := Nat.mul_le_mul_left fuel (Idpf.encSize_le κ); omega
  have hN' : 32 * fuel * bits + 2 * (32 * fuel) + 32 ≤ N := by rw [Nat.mul_add] at hN; omega
  obtain ⟨p, hu⟩ := h.u
  obtain ⟨q, hw⟩ := h.w
  have s1 := hs .inner
  have s2 := hs .leaf
  have k1 := (sampS_ok (F := Fk .inner) h.ks).2.2
  have k2 := (sampS_ok (F := Fk .leaf) h.kl).2.2
  have k3 := (sampS_ok (F := Fk .inner) hu).2.2
  have k4 := (sampS_ok (F := Fk .leaf) hw).2.2
  match l with
  | .inl 0 => exact (h.re hz).2.2 i (by omega)
  | .inl 1 => exact (reS_spec hu hz.u).2.2 i (by omega)
  | .inl 2 => exact (reS_spec hw hz.w).2.2 i (by omega)
  | .inr (ℓ, u) =>
    show (Re bits fuel p1 z' f).node ℓ u i = f.node ℓ u i
    unfold Re
    dsimp only
    rw [if_pos ℓ.2]
    split
    · rw [writeAt_ne (by rw [hz.e _ ℓ.2]; omega), writeAt_ne (by rw [hz.e _ ℓ.2]; omega)]
    · split
      · rename_i hu1
        rw [hu1]
        obtain ⟨r, hv⟩ := h.v ℓ ℓ.2
        have k5 := (sampS_ok hv).2.2
        have s3 := hs (levelKind bits ℓ)
        exact (reS_spec hv (hz.v ℓ ℓ.2)).2.2 i (by omega)
      · rfl

end

/-! ### Reports -/

theorem pairsS_eq {bits fuel : ℕ} {sh sh' : Str} {pos : ℕ} (h : ∀ i, pos ≤ i → sh i = sh' i)
    {AB AB' : (ℓ : ℕ) → (κ : Kind) → Fk κ × Fk κ} (hAB : ∀ ℓ < bits, AB ℓ (levelKind bits ℓ) = AB' ℓ (levelKind bits ℓ)) :
    pairsS bits fuel sh pos AB = pairsS bits fuel sh' pos AB' := by
  unfold pairsS
  have key : ∀ (l : List ℕ), (∀ ℓ ∈ l, ℓ < bits) → ∀ pos', pos ≤ pos' → ∀ st,
      forFold l (pos', st) (pairStep bits fuel sh AB) = forFold l (pos', st) (pairStep bits fuel sh' AB') := by
    intro l
    induction l with
    | nil => intro _ _ _ _; rfl
    | cons a l ih =>
      intro hl pos' hp st
      rw [forFold_cons, forFold_cons]
      have h1 : pairStep bits fuel sh AB (pos', st) a = pairStep bits fuel sh' AB' (pos', st) a := by
        unfold pairStep
        rw [sampS_congr (s' := sh') fun i hi _ => h i (hp.trans hi), hAB a (hl a List.mem_cons_self)]
      rw [h1]
      cases h2 : pairStep bits fuel sh' AB' (pos', st) a with
      | error _ => rfl
      | ok st' =>
        simp only [Except.ok_bind']
        obtain ⟨pos'', st'⟩ := st'
        unfold pairStep at h2
        obtain ⟨r, h3, h4⟩ := Except.bind_eq_ok.1 h2
        cases h4
        exact ih (fun ℓ hm => hl ℓ (List.mem_cons_of_mem _ hm)) _ (hp.trans (sampS_ok h3).2.1) _
  exact key _ (fun ℓ hm => List.mem_range.1 hm) pos le_rfl _

theorem mapRes_mem {α β : Type} {g : α → Res β} {l : List α} {r : List β} (h : mapRes g l = .ok r) {a : α} (ha : a ∈ l) :
    ∃ y, g a = .ok y := by
  induction l generalizing r with
  | nil => cases ha
  | cons x l ih =>
    rw [mapRes_cons] at h
    obtain ⟨y, h1, h2⟩ := Except.bind_eq_ok.1 h
    obtain ⟨ys, h3, -⟩ := Except.bind_eq_ok.1 h2
    rcases List.mem_cons.1 ha with rfl | ha
    · exact ⟨y, h1⟩
    · exact ih h3 ha

theorem chk_ok {bits fuel : ℕ} {S : Source} {cs : ℕ → Bytes} {cc : ℕ → Bool × Bool} {key : Bytes} {t : Bool} {p : ℕ → Bool} {n : ℕ} {u : Unit}
    (h : chk bits fuel S cs cc key t p n = .ok u) : ∀ ℓ < n, ∃ r, sampS (Fk (levelKind bits ℓ)) (S ℓ 1 (kid S cs cc key t p ℓ)) fuel 16 2 = .ok r := by
  induction n with
  | zero => intro ℓ hl; omega
  | succ n ih =>
    intro ℓ hl
    obtain ⟨_, h1, h2⟩ := Except.bind_eq_ok.1 h
    obtain ⟨r, h3, -⟩ := Except.bind_eq_ok.1 h2
    rcases Nat.lt_succ_iff_lt_or_eq.1 hl with h4 | rfl
    · exact ih h1 ℓ h4
    · exact ⟨r, h3⟩

section
variable {e : Env} (he : e.Ok) {P : Prims} {k : ℕ} {alpha alpha' : List Bool} {rand : Bytes} {f : Fresh} {r : Rep}
  {X X' : (ℓ : ℕ) → (κ : Kind) → Fk κ}
include he

/-- The corrupted Aggregator's source for report `k` -/
def Env.src (e : Env) (P : Prims) (k : ℕ) : Source := srcOf P e.bits e.ctx (e.nonces k)

theorem Env.irep_facts (hr : rand.length = 128) (hc : ∀ p ∈ e.cands k, p.length = e.bits) (h : e.irep P k alpha rand f = .ok r) :
    r.alpha = alpha ∧ r.nonce = e.nonces k ∧ r.key = keyOf rand e.b ∧ r.seed = seedOf rand e.b ∧
    PubOk e.bits r.s.pub ∧ Fits e.bits e.fuel e.b (e.src P k) (keyOf rand e.b) r.s.pub alpha (zOf e.bits e.fuel f) ∧
    (∀ p ∈ e.cands k, PwOk e.bits e.fuel e.b (e.src P k) (keyOf rand e.b) r.s.pub p) ∧
    (zOf e.bits e.fuel f).ks = r.s.V.ks ∧ (zOf e.bits e.fuel f).kl = r.s.V.kl ∧ (zOf e.bits e.fuel f).u = r.s.V.u (1 - e.b) ∧
    (zOf e.bits e.fuel f).w = r.s.V.w (1 - e.b) ∧
    (∃ p2, Got e.bits e.fuel f (zOf e.bits e.fuel f) (p1Of e.bits e.fuel f) p2) := by
  have hb := he.b
  unfold Env.irep Env.probe at h
  obtain ⟨s, h8, h9⟩ := Except.bind_eq_ok.1 h
  obtain ⟨ys, h10, h9⟩ := Except.bind_eq_ok.1 h9
  cases h9
  obtain ⟨p1, p2, p3, hD⟩ := shardS_drawn.1 h8
  obtain ⟨q1, hu⟩ := hD.u (1 - e.b) (by omega)
  obtain ⟨q2, hw⟩ := hD.w (1 - e.b) (by omega)
  rw [if_neg (by omega)] at hu hw
  have hpub : (tr e.b (e.src P k) (keyOf rand e.b) alpha (keyOf rand (1 - e.b)) f).pub e.fuel e.bits (gBeta e.bits s.V.ks s.V.kl) = .ok s.pub := hD.pub
  have hg : Got e.bits e.fuel f ⟨s.V.ks, s.V.kl, s.V.u (1 - e.b), s.V.w (1 - e.b), fun ℓ bit => half (f.node ℓ 0) bit,
      (zOf e.bits e.fuel f).v⟩ p1 p2 := by
    refine ⟨hD.ks, hD.kl, ⟨q1, hu⟩, ⟨q2, hw⟩, fun _ _ _ => rfl, ?_⟩
    intro ℓ hl
    obtain ⟨-, -, wb, wj, -, h2, -⟩ := Tree.pub_words hpub hl
    have h3 : sampS (Fk (levelKind e.bits ℓ)) (f.node ℓ 1) e.fuel 16 2 = .ok wj := h2
    refine ⟨wj.2, ?_⟩
    unfold zOf
    dsimp only
    rw [h3]
    rfl
  obtain ⟨c1, c2, c3, c4, c5, c6, c7⟩ := hg.eq
  have hg' : Got e.bits e.fuel f (zOf e.bits e.fuel f) (p1Of e.bits e.fuel f) p2 := by
    refine ⟨?_, ?_, ?_, ?_, fun _ _ _ => rfl, hg.v⟩
    · rw [c1, c2]; exact hg.ks
    · rw [c1, c3]; exact hg.kl
    · rw [c4]; exact hg.u
    · rw [c5]; exact hg.w
  obtain ⟨g1, g2, -⟩ := pub_fits hg' (by rw [c2, c3]; exact hpub)
  refine ⟨rfl, rfl, rfl, rfl, g1, g2, ?_, c2, c3, c4, c5, p2, hg'⟩
  intro p hp
  obtain ⟨y, hy⟩ := mapRes_mem h10 hp
  have hsh := Tree.pub_shaped (fun _ _ => gBeta_length _ _ _) hpub
  have hbits := he.bits
  rw [evalPrefix_evalS he.fuel he.ctx hsh (keyOf_length hr hb) e.b (by omega) (by rw [hc p hp]; omega)] at hy
  obtain ⟨y', hy', -⟩ := Except.bind_eq_ok.1 hy
  unfold evalS at hy'
  obtain ⟨u, h1, h2⟩ := Except.bind_eq_ok.1 hy'
  obtain ⟨r', h3, -⟩ := Except.bind_eq_ok.1 h2
  intro ℓ hl
  rcases Nat.lt_or_ge ℓ (e.bits - 1) with h4 | h4
  · exact chk_ok h1 ℓ h4
  · obtain rfl : ℓ = e.bits - 1 := by omega
    exact ⟨r', h3⟩

/-- The other report -/
theorem Env.irep_tau (hr : rand.length = 128) (hc : ∀ p ∈ e.cands k, p.length = e.bits) (ha' : alpha' ∈ e.cands k)
    (h : e.irep P k alpha rand f = .ok r) :
    ∃ r', e.irep P k alpha' rand (tau e.bits e.fuel e.b (e.src P k) (keyOf rand e.b) r.s.pub alpha alpha' X X' f) = .ok r' ∧
      r'.s.pub = r.s.pub ∧ r'.s.corr = r.s.corr ∧ r'.alpha = alpha' ∧ r'.nonce = r.nonce ∧ r'.key = r.key ∧ r'.seed = r.seed ∧
      ∀ ℓ < e.bits, r'.s.V.k ℓ (levelKind e.bits ℓ) = (shiftScalars (X ℓ _) (X' ℓ _) (r.s.V.k ℓ _, r.s.V.tri (1 - e.b) ℓ _, (0, 0))).1 ∧
        r'.s.V.tri (1 - e.b) ℓ (levelKind e.bits ℓ) =
          (shiftScalars (X ℓ _) (X' ℓ _) (r.s.V.k ℓ _, r.s.V.tri (1 - e.b) ℓ _, (0, 0))).2.1 := by
  have hb := he.b
  obtain ⟨f1, f2, f3, f4, hp, hf, hpw, c2, c3, c4, c5, p2', hg⟩ := e.irep_facts he hr hc h
  have hpw' := hpw alpha' ha'
  unfold Env.irep Env.probe at h
  obtain ⟨s, h8, h9⟩ := Except.bind_eq_ok.1 h
  obtain ⟨ys, h10, h9⟩ := Except.bind_eq_ok.1 h9
  cases h9
  dsimp only at f1 f2 f3 f4 hp hf hpw c2 c3 c4 c5 hpw' ⊢
  obtain ⟨p1, p2, p3, hD⟩ := shardS_drawn.1 h8
  obtain rfl : p2' = p2 := by
    have k1 := hg.ks
    rw [hD.ks, c2] at k1
    have k2 : p1 = p1Of e.bits e.fuel f := (Prod.mk.inj (Except.ok.inj k1)).2
    have k3 := hg.kl
    rw [← k2, hD.kl] at k3
    exact (Prod.mk.inj (Except.ok.inj k3)).2.symm
  obtain ⟨f', hf'⟩ : ∃ f', f' = tau e.bits e.fuel e.b (e.src P k) (keyOf rand e.b) s.pub alpha alpha' X X' f := ⟨_, rfl⟩
  obtain ⟨z', hz'⟩ : ∃ z', z' = zNew e.bits e.fuel e.b (e.src P k) (keyOf rand e.b) s.pub alpha alpha' X X' (zOf e.bits e.fuel f) := ⟨_, rfl⟩
  obtain ⟨t1, -, t3⟩ := tau_got (alpha := alpha) (X := X) (X' := X') hg hp hpw'
  have hfit : Fits e.bits e.fuel e.b (e.src P k) (keyOf rand e.b) s.pub alpha' z' := hz' ▸ zNew_fits
  have hscal : ∀ ℓ < e.bits, kAt z'.ks z'.kl ℓ (levelKind e.bits ℓ) = (sc X X' (zOf e.bits e.fuel f) ℓ _).1 ∧
      triAt z'.u z'.w ℓ (levelKind e.bits ℓ) = (sc X X' (zOf e.bits e.fuel f) ℓ _).2.1 := by
    intro ℓ hl
    rw [hz']
    exact zNew_scalars _ hl rfl
  rw [← hf', ← hz'] at t1
  rw [← hf'] at t3 ⊢
  have hpub := fits_pub (keyj := keyOf rand (1 - e.b)) t1 hp hfit hpw'
  unfold sc at hscal
  rw [c2, c3, c4, c5] at hscal
  obtain ⟨V', hV'⟩ : ∃ V' : Vals, V' = ⟨z'.ks, z'.kl, pair (if e.b = 0 then s.V.u 0 else z'.u) (if e.b = 0 then z'.u else s.V.u 1),
    pair (if e.b = 0 then s.V.w 0 else z'.w) (if e.b = 0 then z'.w else s.V.w 1)⟩ := ⟨_, rfl⟩
  have eu : V'.u e.b = s.V.u e.b ∧ V'.w e.b = s.V.w e.b ∧ V'.u (1 - e.b) = z'.u ∧ V'.w (1 - e.b) = z'.w := by
    rw [hV']
    interval_cases hh : e.b
    · exact ⟨rfl, rfl, rfl, rfl⟩
    · exact ⟨rfl, rfl, rfl, rfl⟩
  have ek : V'.ks = z'.ks ∧ V'.kl = z'.kl := by rw [hV']; exact ⟨rfl, rfl⟩
  have hk' : ∀ ℓ < e.bits, V'.k ℓ (levelKind e.bits ℓ) = (shiftScalars (X ℓ _) (X' ℓ _) (s.V.k ℓ _, s.V.tri (1 - e.b) ℓ _, (0, 0))).1 := by
    intro ℓ hl
    unfold Vals.k
    rw [ek.1, ek.2]
    exact (hscal ℓ hl).1
  have htri : ∀ ℓ < e.bits, V'.tri (1 - e.b) ℓ (levelKind e.bits ℓ) =
      (shiftScalars (X ℓ _) (X' ℓ _) (s.V.k ℓ _, s.V.tri (1 - e.b) ℓ _, (0, 0))).2.1 := by
    intro ℓ hl
    unfold Vals.tri
    rw [eu.2.2.1, eu.2.2.2]
    exact (hscal ℓ hl).2
  have htrib : ∀ ℓ κ, V'.tri e.b ℓ κ = s.V.tri e.b ℓ κ := by
    intro ℓ κ
    unfold Vals.tri
    rw [eu.1, eu.2.1]
  have hab : ∀ ℓ < e.bits, s.V.ab ℓ (levelKind e.bits ℓ) = V'.ab ℓ (levelKind e.bits ℓ) := by
    intro ℓ hl
    have gen : ∀ (W : Vals) κ, W.ab ℓ κ = sumAB (W.tri e.b ℓ κ) (W.tri (1 - e.b) ℓ κ) (W.k ℓ κ) := by
      intro W κ
      unfold Vals.ab
      interval_cases e.b
      · rfl
      · exact sumAB_comm _ _ _
    rw [gen, gen, htrib, htri ℓ hl, hk' ℓ hl]
    exact (sumAB_shift (X ℓ _) (X' ℓ _) (s.V.tri e.b ℓ _) (s.V.k ℓ _, s.V.tri (1 - e.b) ℓ _, (0, 0))).symm
  have hdr : e.ishard P k alpha' rand f' = .ok ⟨s.pub, V', s.corr⟩ := by
    refine shardS_drawn.2 ⟨p1Of e.bits e.fuel f, p2', p3, ?_, ?_, ?_, ?_, ?_, ?_, ?_⟩
    · dsimp only; rw [ek.1]; exact t1.ks
    · dsimp only; rw [ek.2]; exact t1.kl
    · dsimp only; rw [ek.1, ek.2]; exact hpub
    · intro j hj
      dsimp only
      by_cases hj' : j = e.b
      · rw [if_pos hj', hj', eu.1]
        have := hD.u e.b hb
        rwa [if_pos rfl] at this
      · rw [if_neg hj', show j = 1 - e.b by omega, eu.2.2.1]
        exact t1.u
    · intro j hj
      dsimp only
      by_cases hj' : j = e.b
      · rw [if_pos hj', hj', eu.2.1]
        have := hD.w e.b hb
        rwa [if_pos rfl] at this
      · rw [if_neg hj', show j = 1 - e.b by omega, eu.2.2.2]
        exact t1.w
    · dsimp only
      rw [pairsS_eq (sh' := f.sh) t3 (AB' := s.V.ab) fun ℓ hl => (hab ℓ hl).symm]
      exact hD.corr
    · rw [hV']
      exact ⟨_, _, _, _, rfl, rfl⟩
  refine ⟨⟨⟨s.pub, V', s.corr⟩, alpha', e.nonces k, keyOf rand e.b, seedOf rand e.b⟩, ?_, rfl, rfl, rfl, rfl, rfl, rfl, fun ℓ hl => ⟨hk' ℓ hl, htri ℓ hl⟩⟩
  unfold Env.irep Env.probe
  rw [hdr]
  simp only [Except.ok_bind']
  rw [h10]
  rfl

end

end Vdaf.PO
