import Verif.Proofs.Bits
import Verif.Proofs.Idpf
import Verif.Proofs.Prio3Codec

/-! The encoding of IDPF public shares. -/

namespace Vdaf

/-- A loop that parses one item after the other. -/
theorem parseLoop_ok {α : Type} {n : ℕ} {k : ℕ → ℕ} {dec : ℕ → Bytes → Res α}
    {good : ℕ → α → Prop} {enc : α → Bytes}
    (hdec : ∀ i < n, ∀ b x, b.length = k i → (dec i b = .ok x ↔ good i x ∧ enc x = b))
    (hlen : ∀ i < n, ∀ x, good i x → (enc x).length = k i) {e rest : Bytes} {xs : List α} :
    forFold (List.range n) (([] : List α), e) (fun (x : List α × Bytes) i => do
      let (b, encoded) ← front (k i) x.2
      let y ← dec i b
      return (x.1 ++ [y], encoded)) = .ok (xs, rest) ↔
      xs.length = n ∧ (∀ i (h : i < xs.length), good i xs[i]) ∧ e = (xs.map enc).flatten ++ rest := by
  induction n generalizing xs rest with
  | zero =>
    constructor
    · intro h; cases h; simp
    · rintro ⟨h1, -, rfl⟩
      have := List.length_eq_zero_iff.1 h1
      subst this
      simp
  | succ n ih =>
    have ih' := fun {rest xs} => ih (fun i hi => hdec i (by omega)) (fun i hi => hlen i (by omega))
      (rest := rest) (xs := xs)
    rw [List.range_succ, forFold_append, Except.bind_eq_ok]
    constructor
    · rintro ⟨⟨ps, r⟩, h1, h2⟩
      obtain ⟨l, hp, rfl⟩ := ih'.1 h1
      rw [forFold_cons] at h2
      dsimp only at h2
      rw [Except.bind_eq_ok] at h2
      obtain ⟨s, h3, h2⟩ := h2
      rw [Except.bind_eq_ok] at h3
      obtain ⟨⟨a, r'⟩, h4, h3⟩ := h3
      dsimp only at h3
      rw [Except.bind_eq_ok] at h3
      obtain ⟨y, h5, h3⟩ := h3
      cases h3; cases h2
      obtain ⟨rfl, la⟩ := front_eq_ok.1 h4
      obtain ⟨hg, he⟩ := (hdec n (by omega) a y la).1 h5
      refine ⟨by simp [l], ?_, by simp [he]⟩
      intro i hi
      rw [List.length_append, List.length_singleton] at hi
      by_cases h : i < ps.length
      · rw [List.getElem_append_left h]; exact hp i h
      · have : i = ps.length := by omega
        subst this
        rw [List.getElem_append_right (by omega)]
        simpa [l] using hg
    · rintro ⟨h1, h2, rfl⟩
      rcases List.eq_nil_or_concat' xs with rfl | ⟨ps, p, rfl⟩
      · simp at h1
      · have hl : ps.length = n := by simpa using h1
        have hg : good n p := by
          have := h2 n (by simp [hl])
          rwa [List.getElem_append_right (by omega), List.getElem_singleton] at this
        refine ⟨(ps, enc p ++ rest), ih'.2 ⟨hl, fun i hi => ?_, by simp⟩, ?_⟩
        · have := h2 i (by simp; omega)
          rwa [List.getElem_append_left hi] at this
        · rw [forFold_cons]
          dsimp only
          rw [front_append' (hlen n (by omega) p hg)]
          simp only [Except.ok_bind']
          rw [(hdec n (by omega) _ p (hlen n (by omega) p hg)).2 ⟨hg, rfl⟩]
          rfl

namespace Idpf
variable {I : Idpf}

/-- A public share of the right shape and types: a correction word for each level, with a seed of 16 bytes and
`VALUE_LEN` elements of the field of the level. -/
def Typed (I : Idpf) (pub : List CorrectionWord) : Prop :=
  pub.length = I.bits ∧ ∀ ℓ (h : ℓ < pub.length), pub[ℓ].seedCw.length = 16 ∧
    ∃ w : List (Fk (I.currentField ℓ)), pub[ℓ].wCw = ⟨I.currentField ℓ, w⟩ ∧ w.length = I.valueLen

/-- The bits of the control-bit corrections -/
def ctrlBits (pub : List CorrectionWord) : List Bool :=
  (pub.map CorrectionWord.ctrlCw).flatMap fun c => [c.1, c.2]

theorem ctrlBits_length (pub : List CorrectionWord) : (ctrlBits pub).length = 2 * pub.length := by
  induction pub with
  | nil => rfl
  | cons a l ih =>
    simp only [ctrlBits, List.map_cons, List.flatMap_cons, List.length_append, List.length_cons] at *
    rw [ih]; simp; omega

theorem encodeVecAs_self {κ : Kind} (w : List (Fk κ)) : encodeVecAs κ ⟨κ, w⟩ = .ok (encAll w) :=
  encodeVec_eq w

def payload (pub : List CorrectionWord) : List FieldVec := pub.map CorrectionWord.wCw

def encF (v : FieldVec) : Bytes := encAll v.2

theorem encodeVecAs_of {κ : Kind} {v : FieldVec} (h : v.1 = κ) : encodeVecAs κ v = .ok (encF v) := by
  obtain ⟨κ', w⟩ := v
  dsimp only at h
  subst h
  exact encodeVecAs_self w

theorem encodePublicShare_ok (hb : 0 < I.bits) {pub : List CorrectionWord} (hp : I.Typed pub) {b : Bytes}
    (hpack : packBits (ctrlBits pub) = .ok b) :
    encodePublicShare pub = .ok (b ++ (pub.map CorrectionWord.seedCw).flatten ++
      ((pub.map CorrectionWord.wCw).map encF).flatten) := by
  obtain ⟨hl, hp⟩ := hp
  have hne : pub ≠ [] := by rintro rfl; simp at hl; omega
  unfold encodePublicShare
  rw [raiseIf_of_not hne]
  simp only [Except.ok_bind']
  rw [show packBits ((pub.map CorrectionWord.ctrlCw).flatMap fun c => [c.1, c.2]) = .ok b from hpack]
  simp only [Except.ok_bind']
  have hf : ∀ (l : List Bytes) (acc : Bytes), l.foldl (fun e s => e ++ s) acc = acc ++ l.flatten := by
    intro l
    induction l with
    | nil => simp
    | cons a l ih => intro acc; rw [List.foldl_cons, ih]; simp
  rw [hf]
  obtain ⟨init, last, rfl⟩ := (List.eq_nil_or_concat' pub).resolve_left hne
  have hil : init.length = I.bits - 1 := by simp at hl; omega
  have hin : ∀ cw ∈ init, encodeVecAs .inner cw.wCw = .ok (encF cw.wCw) := by
    intro cw hcw
    obtain ⟨ℓ, hℓ, rfl⟩ := List.mem_iff_getElem.1 hcw
    obtain ⟨-, w, hw, -⟩ := hp ℓ (by simp; omega)
    rw [List.getElem_append_left hℓ] at hw
    exact encodeVecAs_of (by rw [hw]; exact currentField_inner (by omega))
  have hla : encodeVecAs .leaf last.wCw = .ok (encF last.wCw) := by
    obtain ⟨-, w, hw, -⟩ := hp init.length (by simp)
    rw [List.getElem_append_right (by omega)] at hw
    simp only [Nat.sub_self, List.getElem_singleton] at hw
    exact encodeVecAs_of (by rw [hw]; exact currentField_leaf (by omega))
  have hloop : ∀ (l : List CorrectionWord) (acc : Bytes), (∀ cw ∈ l, encodeVecAs .inner cw.wCw = .ok (encF cw.wCw)) →
      forFold (l.map CorrectionWord.wCw) acc (fun encoded payload => do
        let b ← encodeVecAs .inner payload
        return encoded ++ b) = .ok (acc ++ ((l.map CorrectionWord.wCw).map encF).flatten) := by
    intro l
    induction l with
    | nil => intro acc _; simp
    | cons a l ih =>
      intro acc h
      rw [List.map_cons, forFold_cons, h a (by simp)]
      have := ih (acc ++ encF a.wCw) fun cw hcw => h cw (by simp [hcw])
      simp only [Except.ok_bind', Except.pure_eq'] at this ⊢
      rw [this]
      simp
  rw [List.map_append, List.map_append]
  simp only [List.map_cons, List.map_nil, List.dropLast_concat, List.getLast?_concat]
  rw [hloop init _ hin]
  simp only [Except.ok_bind']
  rw [hla]
  simp

theorem ctrlBits_pairs {n : ℕ} {bits : List Bool} (hl : bits.length = 2 * n) :
    mapRes (fun level => do
      let a ← getI bits (2 * level)
      let b ← getI bits (2 * level + 1)
      return (a, b)) (List.range n) =
      .ok (tab n fun i => (bitAt bits (2 * i), bitAt bits (2 * i + 1))) := by
  refine mapRes_range_tab fun i hi => ?_
  rw [getI_of_lt (by omega), getI_of_lt (by omega), bitAt_of_lt (by omega), bitAt_of_lt (by omega)]
  rfl

theorem ctrlBits_getElem (pub : List CorrectionWord) (ℓ : ℕ) (h : ℓ < pub.length) :
    bitAt (ctrlBits pub) (2 * ℓ) = pub[ℓ].ctrlCw.1 ∧ bitAt (ctrlBits pub) (2 * ℓ + 1) = pub[ℓ].ctrlCw.2 := by
  induction pub generalizing ℓ with
  | nil => simp at h
  | cons a l ih =>
    cases ℓ with
    | zero => simp [ctrlBits, bitAt]
    | succ ℓ =>
      have := ih ℓ (by simpa using h)
      rw [show 2 * (ℓ + 1) = 2 * ℓ + 1 + 1 by omega]
      simpa [ctrlBits, bitAt] using this

theorem bits_ext {a b : List Bool} (hl : a.length = b.length) (h : ∀ i < a.length, bitAt a i = bitAt b i) :
    a = b := by
  apply List.ext_getElem hl
  intro i h1 h2
  rw [← bitAt_of_lt h1, ← bitAt_of_lt h2, h i h1]

theorem fieldVec_good (ℓ : ℕ) (b : Bytes) (x : FieldVec)
    (hb : b.length = PyField.encSize (Fk (I.currentField ℓ)) * I.valueLen) :
    ((decodeVec (Fk (I.currentField ℓ)) b >>= fun w => (.ok ⟨_, w⟩ : Res FieldVec)) = .ok x) ↔
      (∃ w : List (Fk (I.currentField ℓ)), x = ⟨I.currentField ℓ, w⟩ ∧ w.length = I.valueLen) ∧
      encF x = b := by
  constructor
  · intro h
    rw [Except.bind_eq_ok] at h
    obtain ⟨w, h1, h2⟩ := h
    cases h2
    rw [decodeVec_eq_ok] at h1
    subst h1
    exact ⟨⟨w, rfl, encAll_length_iff.1 hb⟩, rfl⟩
  · rintro ⟨⟨w, rfl, hw⟩, rfl⟩
    rw [show encF ⟨I.currentField ℓ, w⟩ = encAll w from rfl, decodeVec_encAll]
    rfl

theorem decodePublicShare_iff (hb : 0 < I.bits) {e : Bytes} {pub : List CorrectionWord} :
    I.decodePublicShare e = .ok pub ↔ I.Typed pub ∧ encodePublicShare pub = .ok e := by
  have hloop := fun (e rest : Bytes) (xs : List FieldVec) => parseLoop_ok (n := I.bits)
    (k := fun ℓ => PyField.encSize (Fk (I.currentField ℓ)) * I.valueLen)
    (dec := fun ℓ b => decodeVec (Fk (I.currentField ℓ)) b >>= fun w => (.ok ⟨_, w⟩ : Res FieldVec))
    (good := fun ℓ x => ∃ w : List (Fk (I.currentField ℓ)), x = ⟨I.currentField ℓ, w⟩ ∧ w.length = I.valueLen)
    (enc := encF) (fun ℓ _ b x h => fieldVec_good ℓ b x h)
    (fun ℓ _ x ⟨w, hx, hw⟩ => by subst hx; exact encAll_length_iff.2 hw) (e := e) (rest := rest) (xs := xs)
  have hfun : (fun (x : List FieldVec × Bytes) level => do
      let κ := I.currentField level
      let (b, encoded) ← front (PyField.encSize (Fk κ) * I.valueLen) x.2
      let payload ← decodeVec (Fk κ) b
      return (x.1 ++ [⟨κ, payload⟩], encoded)) =
    (fun (x : List FieldVec × Bytes) i => do
      let (b, encoded) ← front (PyField.encSize (Fk (I.currentField i)) * I.valueLen) x.2
      let y ← decodeVec (Fk (I.currentField i)) b >>= fun w => (.ok ⟨_, w⟩ : Res FieldVec)
      return (x.1 ++ [y], encoded)) := by
    funext x i
    dsimp only
    cases front (PyField.encSize (Fk (I.currentField i)) * I.valueLen) x.2 with
    | error e => rfl
    | ok r =>
      simp only [Except.ok_bind']
      cases decodeVec (Fk (I.currentField i)) r.1 <;> rfl
  constructor
  · intro h
    unfold decodePublicShare at h
    rw [Except.bind_eq_ok] at h
    obtain ⟨⟨ec, e1⟩, h1, h⟩ := h
    dsimp only at h
    rw [Except.bind_eq_ok] at h
    obtain ⟨bits, h2, h⟩ := h
    obtain ⟨hpack, hbl⟩ := packBits_unpackBits h2
    rw [ctrlBits_pairs hbl, Except.ok_bind', Except.bind_eq_ok] at h
    obtain ⟨⟨seeds, e2⟩, h3, h⟩ := h
    dsimp only at h
    rw [Except.bind_eq_ok] at h
    obtain ⟨⟨payloads, e3⟩, h4, h⟩ := h
    dsimp only at h
    rw [Except.bind_eq_ok] at h
    obtain ⟨u, h5, h⟩ := h
    simp only [Except.pure_eq', Except.ok.injEq] at h
    rw [raiseIf_eq_ok] at h5
    have he3 : e3 = [] := by simpa using h5
    subst he3
    obtain ⟨rfl, -⟩ := front_eq_ok.1 h1
    obtain ⟨ls, hs, rfl⟩ := Prio3.partsLoop_ok.1 h3
    obtain ⟨lp, hpp, rfl⟩ := (hloop _ _ _).1 (by rw [← hfun]; exact h4)
    have hl : pub.length = I.bits := by rw [← h]; simp [ls, lp]
    have hget : ∀ ℓ (hℓ : ℓ < pub.length), pub[ℓ] = ⟨seeds[ℓ]'(by omega),
        (bitAt bits (2 * ℓ), bitAt bits (2 * ℓ + 1)), payloads[ℓ]'(by omega)⟩ := by
      intro ℓ hℓ
      subst h
      simp [tab_getElem]
    have e1 : pub.map CorrectionWord.seedCw = seeds := by
      apply List.ext_getElem
      · simp [hl, ls]
      · intro i h1 h2
        rw [List.getElem_map, hget i (by simpa using h1)]
    have e2 : pub.map CorrectionWord.wCw = payloads := by
      apply List.ext_getElem
      · simp [hl, lp]
      · intro i h1 h2
        rw [List.getElem_map, hget i (by simpa using h1)]
    have e3 : ctrlBits pub = bits := by
      apply bits_ext
      · rw [ctrlBits_length, hl, hbl]
      · intro i hi
        rw [ctrlBits_length] at hi
        have hi2 : i / 2 < pub.length := by omega
        obtain ⟨c1, c2⟩ := ctrlBits_getElem pub (i / 2) hi2
        rw [hget _ hi2] at c1 c2
        rcases Nat.mod_two_eq_zero_or_one i with h | h
        · rwa [show 2 * (i / 2) = i by omega] at c1
        · rwa [show 2 * (i / 2) + 1 = i by omega] at c2
    have ht : I.Typed pub := by
      refine ⟨hl, fun ℓ hℓ => ?_⟩
      rw [hget ℓ hℓ]
      exact ⟨hs _ (List.getElem_mem _), hpp ℓ (by omega)⟩
    refine ⟨ht, ?_⟩
    rw [encodePublicShare_ok hb ht (by rw [e3]; exact hpack), e1, e2]
    simp [concat]
  · rintro ⟨ht, he⟩
    obtain ⟨b, hpk, hun⟩ := unpackBits_packBits (ctrlBits pub) (by
      intro h
      have := ctrlBits_length pub
      rw [h, ht.1] at this
      simp at this
      omega)
    rw [encodePublicShare_ok hb ht hpk, Except.ok.injEq] at he
    subst he
    unfold decodePublicShare
    have hbl : b.length = (2 * I.bits + 7) / 8 := by
      obtain ⟨b', g1, g2, -⟩ := packBits_ok (ctrlBits pub)
      rw [hpk, Except.ok.injEq] at g1
      rw [g1, g2, ctrlBits_length, ht.1]
    rw [List.append_assoc, front_append' hbl]
    simp only [Except.ok_bind']
    rw [ctrlBits_length, ht.1] at hun
    rw [hun]
    simp only [Except.ok_bind']
    rw [ctrlBits_pairs (by rw [ctrlBits_length, ht.1])]
    simp only [Except.ok_bind']
    have hps := (Prio3.partsLoop_ok (n := I.bits) (k := KEY_SIZE) (parts := pub.map CorrectionWord.seedCw)
      (rest := ((pub.map CorrectionWord.wCw).map encF).flatten)).2 ⟨by simp [ht.1], by
        intro p hp
        rw [List.mem_map] at hp
        obtain ⟨cw, hcw, rfl⟩ := hp
        obtain ⟨ℓ, hℓ, rfl⟩ := List.mem_iff_getElem.1 hcw
        exact (ht.2 ℓ hℓ).1, rfl⟩
    have hpl := (hloop _ [] (pub.map CorrectionWord.wCw)).2 ⟨by simp [ht.1], by
        intro ℓ hℓ
        rw [List.getElem_map]
        exact (ht.2 ℓ (by simpa using hℓ)).2, (List.append_nil _).symm⟩
    rw [← hfun] at hpl
    unfold concat at hps
    simp only at hps hpl ⊢
    rw [hps]
    simp only [Except.ok_bind']
    rw [hpl]
    simp only [Except.ok_bind', List.length_nil, ne_eq, not_true_eq_false, decide_false, raiseIf,
      Bool.false_eq_true, if_false, Except.pure_eq', Except.ok.injEq]
    apply List.ext_getElem
    · simp [ht.1]
    · intro ℓ h1 h2
      obtain ⟨c1, c2⟩ := ctrlBits_getElem pub ℓ h2
      simp [tab_getElem, c1, c2]

end Idpf
end Vdaf
