import Verif.Proofs.AnyFlpSound

/-! FLPs that satisfy the laws, and the drivers over them. -/

set_option linter.unusedSectionVars false

namespace Vdaf
open Finset

variable {F : Type} [NttField F] {Meas Agg : Type}

/-! ### `FlpBBCGGI19` -/

theorem bbcggi19_laws {V : Valid F Meas Agg} (hV : V.Lawful) {n : ℕ} (hn : V.proofLen = .ok n) :
    Spec.FlpLaws (flpBBCGGI19 V n) (Spec.rootAbort V) where
  prove meas pr jr h1 h2 h3 := by
    obtain ⟨π, hp, hl⟩ := hV.prove_total h1 h2 h3
    rw [hn] at hl
    exact ⟨π, hp, (Except.ok.inj hl).symm⟩
  query N ms πs meas π qr jr hN hN' hms hπs h1 h2 h3 h4 := by
    have hπ : V.proofLen = .ok π.length := by rw [hn, show π.length = n from h2]
    rcases hV.query_sum hN hN' hms hπs h1 (hV.proofLen_iff.1 hπ) h3 h4 with ⟨a, b⟩ | ⟨v, vs, a, b, c⟩
    · rcases hV.query_total h1 hπ h3 h4 le_rfl (one_lt_modulus F) with ⟨hb, -⟩ | ⟨-, v, hv, -⟩
      · exact .inl ⟨_, if_pos hb, a, b⟩
      · rw [hv] at a; cases a
    · rcases hV.query_total h1 hπ h3 h4 le_rfl (one_lt_modulus F) with ⟨-, hb⟩ | ⟨hb, v', hv, hl⟩
      · rw [hb] at a; cases a
      · rw [hv] at a
        cases a
        exact .inr ⟨if_neg hb, _, vs, hv, b, c, hl⟩

theorem bbcggi19_complete {V : Valid F Meas Agg} (hV : V.Lawful) {n : ℕ}
    {meas : List F} (hmeas : meas.length = V.measLen)
    (hacc : ∀ jr : List F, jr.length = V.jointRandLen → Spec.Accepts V meas jr) :
    Spec.FlpComplete (flpBBCGGI19 V n) meas := by
  intro pr qr jr π v h1 h2 h3 h4 h5
  obtain ⟨π', a1, a2, a3⟩ := hV.complete hmeas h3 h1 h2 (hacc jr h3)
  obtain rfl : π' = π := by
    have : V.prove meas pr jr = .ok π := h4
    rw [a1] at this; exact Except.ok.inj this
  have hone : ∀ u : List F, Spec.IsSum (fun _ : Fin 1 => u) u := fun u => ⟨fun _ => rfl, fun j => by simp⟩
  rcases a3 1 le_rfl (one_lt_modulus F) _ _ (hone meas) (hone π') with ⟨-, h⟩ | ⟨-, vs, v', b1, b2, b3, b4⟩
  · have : V.query meas π' qr jr 1 = .ok v := h5
    rw [h 0] at this; cases this
  · have h6 : V.query meas π' qr jr 1 = .ok v := h5
    rw [b1 0] at h6
    have h7 : (fun _ : Fin 1 => v) = vs := by
      funext i
      rw [Subsingleton.elim i 0]; exact (Except.ok.inj h6).symm
    rw [← h7] at b2
    have : v = v' := IsSum.unique (hone v) b2 (by rw [← b2.1 0])
    rw [this]; exact b4

theorem bbcggi19_for {V : Valid F Meas Agg} {T : Spec.Task Meas Agg} (h : Spec.Computes V T) {n : ℕ}
    (hn : V.proofLen = .ok n) : Spec.FlpFor (flpBBCGGI19 V n) (Spec.rootAbort V) T where
  toFlpLaws := bbcggi19_laws (circuit_iff.1 h.toCircuit) hn
  encode m hm := by
    obtain ⟨e, h1, h2, h3⟩ := h.encode m hm
    exact ⟨e, h1, h2, bbcggi19_complete (circuit_iff.1 h.toCircuit) h2 h3⟩
  truncate := h.truncate
  decode := h.decode

theorem bbcggi19_rejects {V : Valid F Meas Agg} (hV : V.Lawful) {n : ℕ} (hn : V.proofLen = .ok n)
    {meas jr : List F} (hmeas : meas.length = V.measLen) (hjr : jr.length = V.jointRandLen)
    (hinv : ¬ Spec.Accepts V meas jr) (B : ℕ) (hB : 1 ≤ B)
    (hB' : ∀ g c p, (g, c) ∈ List.zip V.gadgets V.gadgetCalls → wirePolyLen c = .ok p → g.degree * (p - 1) ≤ B) :
    Spec.FlpRejects (flpBBCGGI19 V n) (B * PyField.modulus F ^ (V.queryRandLen - 1)) meas jr := by
  intro π hπ
  have hone : ∀ u : List F, Spec.IsSum (fun _ : Fin 1 => u) u := fun u => ⟨fun _ => rfl, fun j => by simp⟩
  obtain ⟨out, log, -, -, -, -, hout⟩ := hV.evalPlain_eq hmeas hjr le_rfl (one_lt_modulus F)
  refine le_trans (Set.ncard_le_ncard ?_ (Set.toFinite _))
    (hV.sound_shares le_rfl (one_lt_modulus F) (hone meas) (hone π) hmeas hjr hout ?_
      (by rw [hn, show π.length = n from hπ]) B hB hB')
  · rintro qr ⟨v, h1, h2⟩
    exact ⟨fun _ => v, v, fun _ => h1, hone v, h2⟩
  · by_contra hc
    push Not at hc
    exact hinv ⟨out, hout, hc⟩

/-! ### `FlpTest` -/

theorem flpTest_for (hm : 5 ≤ PyField.modulus F) (j : ℕ) :
    Spec.FlpFor (FlpTest F j) (fun _ => none) (Spec.flpTestTask F) where
  prove meas pr jr h1 h2 h3 := ⟨meas, rfl, h1⟩
  query N ms πs meas π qr jr hN hN' hms hπs h1 h2 h3 h4 := .inr ⟨rfl, π, πs, rfl, fun _ => rfl, hπs, h2⟩
  encode m hv := by
    refine ⟨[(m : F), (m : F)], ?_, rfl, ?_⟩
    · show (do let x ← ofInt F m; return [x, x]) = _
      obtain ⟨h1, h2⟩ : 0 ≤ m ∧ m < 5 := hv
      rw [ofInt_eq (by omega) (by omega)]
      rfl
    · intro pr qr jr π v _ _ _ h1 h2
      cases h1; cases h2
      show Except.ok (FlpTest.decide [(m : F), (m : F)]) = _
      obtain ⟨k, rfl⟩ := Int.eq_ofNat_of_zero_le hv.1
      have hk : k < 5 := by have := hv.2; omega
      have : PyField.toNat ((k : Int) : F) = k := by
        rw [Int.cast_natCast]; exact PyField.toNat_natCast _ (by omega)
      simp only [FlpTest.decide, this]
      simp [hk]
  truncate N es e hs hl := by
    have h2 : ∀ i, (es i).length = 2 := fun i => (hs.1 i).trans hl
    have ht : ∀ u : List F, u.length = 2 → (FlpTest F j).truncate u = .ok [coef u 0] := by
      intro u hu
      show (do let x ← getI u 0; return [x]) = _
      rw [getI_of_lt (by omega), coef_of_lt (by omega)]; rfl
    exact ⟨fun i => [coef (es i) 0], [coef e 0], ht e hl, fun i => ht _ (h2 i),
      isSum_singleton ((isSum_iff.1 hs).2 0), rfl⟩
  decode n ms es os tot hms hsup he ho hs hl := by
    have hos : ∀ i, os i = [((ms i : Int) : F)] := by
      intro i
      have h1 : (do let x ← ofInt F (ms i); return [x, x]) = Except.ok (es i) := he i
      obtain ⟨h3, h4⟩ : 0 ≤ ms i ∧ ms i < 5 := hms i
      rw [ofInt_eq (by omega) (by omega)] at h1
      have h2 := ho i
      rw [← Except.ok.inj h1] at h2
      exact (Except.ok.inj h2).symm
    rw [single_decode (fun i => (hms i).1) hos hs hl]
    show (do let x ← getI [_] 0; return PyField.toNat x) = _
    simp only [getI, List.getElem?_cons_zero, Except.ok_bind', Except.pure_eq']
    rw [PyField.toNat_natCast _ hsup]
    rfl

/-! ### `run_flp` -/

theorem runFlpOf_eq {Φ : FlpImpl F Meas Agg} {abort : List F → Option Err} (L : Spec.FlpLaws Φ abort)
    {meas jr pr qr : List F} (hmeas : meas.length = Φ.measLen) (hjr : jr.length = Φ.jointRandLen)
    (hpr : pr.length = Φ.proveRandLen) (hqr : qr.length = Φ.queryRandLen)
    (N : ℕ) (hN : 1 ≤ N) (hN' : N < PyField.modulus F)
    (measRands proofRands : List (List F)) (h1 : measRands.length = N - 1)
    (h2 : ∀ r ∈ measRands, r.length = Φ.measLen) (h3 : proofRands.length = N - 1)
    (h4 : ∀ r ∈ proofRands, r.length = Φ.proofLen) :
    runFlpOf Φ meas jr pr qr measRands proofRands N = (do
      let π ← Φ.prove meas pr jr
      let v ← Φ.query meas π qr jr 1
      Φ.decide v) := by
  obtain ⟨π, hπ, hπl⟩ := L.prove _ _ _ hmeas hpr hjr
  have hm' : ∀ r ∈ measRands, r.length = meas.length := fun r hr => by rw [h2 r hr, hmeas]
  have hp' : ∀ r ∈ proofRands, r.length = π.length := fun r hr => by rw [h4 r hr, hπl]
  unfold runFlpOf
  rw [hπ]
  simp only [Except.ok_bind']
  rw [additiveSecretShare_eq hm', additiveSecretShare_eq hp']
  simp only [Except.ok_bind']
  have hml : (measRands ++ [tab meas.length fun j => coef meas j - colsum measRands j]).length = N := by
    simp [h1]; omega
  have hpl : (proofRands ++ [tab π.length fun j => coef π j - colsum proofRands j]).length = N := by
    simp [h3]; omega
  have hS := (isSum_list _ _).1 (share_isSum hm')
  have hT := (isSum_list _ _).1 (share_isSum hp')
  generalize measRands ++ [tab meas.length fun j => coef meas j - colsum measRands j] = ms at *
  generalize proofRands ++ [tab π.length fun j => coef π j - colsum proofRands j] = πs at *
  have hS' : Spec.IsSum (fun i : Fin N => ms[i]) meas := by
    subst hml; exact (isSum_list _ _).2 hS
  have hT' : Spec.IsSum (fun i : Fin N => πs[i]) π := by
    subst hpl; exact (isSum_list _ _).2 hT
  have hzl : (List.zip ms πs).length = N := by simp [hpl, hml]
  rcases L.query N _ _ _ _ qr jr hN hN' hS' hT' hmeas hπl hqr hjr with
    ⟨e, -, hq, he⟩ | ⟨-, v, vs, hq, hvs, hsum, hvl⟩
  · rw [hq]
    obtain ⟨a, t, hcons⟩ := List.exists_cons_of_ne_nil
      (List.ne_nil_of_length_pos (show 0 < (List.zip ms πs).length by omega))
    have h0 := he ⟨0, by omega⟩
    have ha : a = (ms[0], πs[0]) := by
      have : (List.zip ms πs)[0] = a := by simp only [hcons, List.getElem_cons_zero]
      rw [← this, List.getElem_zip]
    rw [hcons, mapRes, ha]
    simp only
    rw [show Φ.query ms[0] πs[0] qr jr N = .error e from h0]
    rfl
  · rw [hq, mapRes_ofFn _ _ hzl vs (by
      intro i
      simp only [Fin.getElem_fin, List.getElem_zip]
      exact hvs i)]
    simp only [Except.ok_bind']
    rw [getI_of_lt (by simp; omega)]
    simp only [Except.ok_bind', List.getElem_ofFn]
    obtain ⟨ha, hb⟩ := (isSum_ofFn vs v).1 hsum
    rw [vecSum_eq (by rw [hsum.1]) ha hb]
    rfl

theorem flpTest_runFlp {j : ℕ} {meas : List F} (jr pr qr : List F) (measRands proofRands : List (List F))
    (h1 : ∀ r ∈ measRands, r.length = meas.length) (h3 : measRands.length = proofRands.length)
    (h2 : ∀ r ∈ proofRands, r.length = meas.length) (N : ℕ) :
    runFlpOf (FlpTest F j) meas jr pr qr measRands proofRands N = .ok (FlpTest.decide meas) := by
  unfold runFlpOf
  show (do
    let measShares ← additiveSecretShare meas measRands
    let proofShares ← additiveSecretShare meas proofRands
    let verifierShares ← mapRes (fun (x : List F × List F) => (.ok x.2 : Res (List F)))
      (List.zip measShares proofShares)
    let v0 ← getI verifierShares 0
    let verifier ← forFold verifierShares (fieldZeros F v0.length) fun verifier verifierShare =>
      vecAdd verifier verifierShare
    (.ok (FlpTest.decide verifier) : Res Bool)) = _
  rw [additiveSecretShare_eq h1, additiveSecretShare_eq h2]
  simp only [Except.ok_bind']
  have hT := (isSum_list _ _).1 (share_isSum h2)
  have hl : (measRands ++ [tab meas.length fun j => coef meas j - colsum measRands j]).length =
      (proofRands ++ [tab meas.length fun j => coef meas j - colsum proofRands j]).length := by simp [h3]
  have hpos : 0 < (proofRands ++ [tab meas.length fun j => coef meas j - colsum proofRands j]).length := by simp
  generalize measRands ++ [tab meas.length fun j => coef meas j - colsum measRands j] = ms at *
  generalize proofRands ++ [tab meas.length fun j => coef meas j - colsum proofRands j] = πs at *
  have hmap : ∀ l : List (List F × List F), mapRes (fun (x : List F × List F) => (.ok x.2 : Res (List F))) l =
      .ok (l.map Prod.snd) := by
    intro l
    induction l with
    | nil => rfl
    | cons a l ih => rw [mapRes_cons, ih]; rfl
  rw [hmap, List.map_snd_zip (by omega)]
  simp only [Except.ok_bind']
  rw [getI_of_lt hpos]
  simp only [Except.ok_bind']
  rw [vecSum_eq (v := meas) (by rw [← hT.1 _ (List.getElem_mem hpos)]) hT.1 hT.2]
  rfl

/-! ### Prio3 -/

theorem Prio3Of.init_ok {X : Xof} {id shares n : ℕ} {Φ : FlpImpl F Meas Agg} {P : Prio3Of X F Meas Agg} :
    Prio3Of.init id X shares Φ n = .ok P ↔ 2 ≤ shares ∧ shares < 256 ∧ P = ⟨id, shares, n, Φ⟩ := by
  unfold Prio3Of.init
  by_cases h : 2 ≤ shares ∧ shares < 256
  · rw [raiseIf_of_not (by simpa using h)]
    simp only [Except.ok_bind', Except.pure_eq', Except.ok.injEq]
    exact ⟨fun e => ⟨h.1, h.2, e.symm⟩, fun e => e.2.2.symm⟩
  · constructor
    · intro e
      simp [raiseIf, h] at e
    · rintro ⟨a, b, -⟩
      exact absurd ⟨a, b⟩ h

theorem Spec.FlpInstance.wf {prims : Prims} {fuel : ℕ} {P : Prio3Of (XofTurboShake128 prims fuel) F Meas Agg}
    (I : Spec.FlpInstance P) {abort : List F → Option Err} (L : Spec.FlpLaws P.flp abort) : P.WF abort := by
  obtain ⟨h1, h2, -⟩ := Prio3Of.init_ok.1 I.init
  exact ⟨I.id, h1, h2, I.shares, I.proofs, L, .turbo _ _ _⟩

theorem flpRun {prims : Prims} {fuel : ℕ} {P : Prio3Of (XofTurboShake128 prims fuel) F Meas Agg}
    (I : Spec.FlpInstance P) {T : Spec.Task Meas Agg} {abort : List F → Option Err} (C : Spec.FlpFor P.flp abort T)
    {vk ctx : Bytes} (hctx : ctx.length + 8 < 2 ^ 16) (hvk : vk.length = 32) {ms : List (Meas × Bytes × Bytes)}
    (hms : ∀ m ∈ ms, T.valid m.1 ∧ m.2.1.length = 16 ∧ m.2.2.length = P.randSize)
    (hsup : T.supported (ms.map Prod.fst)) :
    Good (Spec.Of.HonestFailure P abort vk ctx (ms.map fun m => m.2.1)) (runVdaf P.vdaf vk () ctx ms) fun R =>
      R = T.agg (ms.map Prod.fst) := by
  have hex : ∀ m, ∃ eo : List F × List F, T.valid m → P.flp.encode m = .ok eo.1 ∧ eo.1.length = P.flp.measLen ∧
      P.flp.truncate eo.1 = .ok eo.2 ∧ eo.2.length = P.flp.outputLen ∧ Spec.FlpComplete P.flp eo.1 := by
    intro m
    by_cases hm : T.valid m
    · obtain ⟨e, h1, h2, h3⟩ := C.encode m hm
      obtain ⟨-, o, h4, -, -, h5⟩ := C.truncate 1 (fun _ => e) e
        ⟨fun _ => rfl, fun j => by simp⟩ h2
      exact ⟨(e, o), fun _ => ⟨h1, h2, h4, h5, h3⟩⟩
    · exact ⟨([], []), fun h => absurd h hm⟩
  choose eo heo using hex
  have H : FlpFacts P.flp T.valid fun m k => coef (eo m).2 k := by
    refine ⟨fun es e h hl => C.truncate _ es e h hl, fun m hm => ?_⟩
    obtain ⟨h1, h2, h3, h4, h5⟩ := heo m hm
    exact ⟨_, h1, h2, by rw [h3]; congr 1; exact eq_tab h4, h5⟩
  refine Prio3Of.runVdaf_gen (I.wf C.toFlpLaws) hctx H hvk hms ⟨_, ?_, rfl⟩
  have hval : ∀ i : Fin ms.length, T.valid (ms[i].1) := fun i => (hms _ (List.getElem_mem _)).1
  have hof : List.ofFn (fun i : Fin ms.length => ms[i].1) = ms.map Prod.fst := by
    apply List.ext_getElem (by simp)
    intro i h1 h2
    simp
  have := C.decode ms.length (fun i => ms[i].1) (fun i => (eo ms[i].1).1) (fun i => (eo ms[i].1).2)
    (tab P.flp.outputLen fun k => (ms.map fun m => coef (eo m.1).2 k).sum) hval (by rw [hof]; exact hsup)
    (fun i => (heo _ (hval i)).1) (fun i => (heo _ (hval i)).2.2.1) ?_ (by simp)
  · rw [hof] at this
    exact this
  · refine ⟨fun i => by simpa using (heo _ (hval i)).2.2.2.1, fun j => ?_⟩
    show coef _ j = ∑ i, coef _ j
    rw [coef_tab]
    have hsum : (ms.map fun m => coef (eo m.1).2 j).sum = ∑ i : Fin ms.length, coef (eo ms[i].1).2 j := by
      rw [← List.sum_ofFn]
      congr 1
      apply List.ext_getElem (by simp)
      intro i h1 h2
      simp
    split
    · exact hsum
    · next h =>
      symm
      apply sum_eq_zero
      intro i _
      have := (heo _ (hval i)).2.2.2.1
      exact coef_of_le (by omega)

end Vdaf
