import Verif.Proofs.Prio3Verify

/-! Honest executions of Prio3 with `run_vdaf`. -/

set_option linter.unusedSectionVars false

namespace Vdaf
open Finset

theorem mapRes_first_error {α β : Type} {f : α → Res β} {l : List α} {e : Err} {a : α}
    (hl : l.head? = some a) (h : f a = .error e) : mapRes f l = .error e := by
  cases l with
  | nil => cases hl
  | cons b l =>
    cases hl
    rw [mapRes_cons, h]; rfl

theorem list_sum_range {F : Type} [NttField F] (n : ℕ) (f : ℕ → F) :
    ((List.range n).map f).sum = ∑ i ∈ range n, f i := by
  induction n with
  | zero => simp
  | succ n ih => rw [List.range_succ, List.map_append, List.sum_append, ih, sum_range_succ]; simp

/-- What an honest execution needs from a circuit: `o m` is the truncated encoding of `m`. -/
structure RunFacts {F : Type} [NttField F] {Meas Agg : Type} (V : Valid F Meas Agg) (valid : Meas → Prop)
    (o : Meas → ℕ → F) : Prop where
  trunc : ∀ {N : ℕ} (es : Fin N → List F) (e : List F), Spec.IsSum es e →
    e.length = V.measLen → ∃ (os : Fin N → List F) (o : List F), V.truncate e = .ok o ∧
      (∀ i, V.truncate (es i) = .ok (os i)) ∧ Spec.IsSum os o ∧ o.length = V.outputLen
  enc : ∀ m, valid m → ∃ e : List F, V.encode m = .ok e ∧ e.length = V.measLen ∧
    V.truncate e = .ok (tab V.outputLen (o m)) ∧
    ∀ jr : List F, jr.length = V.jointRandLen → Spec.Accepts V e jr

namespace Prio3
variable {X : Xof} {F : Type} [NttField F] {Meas Agg : Type} {P : Prio3 X F Meas Agg}

/-- The aggregate shares `A j` have the right length and sum to `T`. -/
def Totals (P : Prio3 X F Meas Agg) (A : ℕ → List F) (T : ℕ → F) : Prop :=
  (∀ j < P.shares, (A j).length = P.flp.outputLen) ∧
    ∀ k < P.flp.outputLen, ∑ j ∈ range P.shares, coef (A j) k = T k

/-- Coordinatewise sum of two vectors of length `n`. -/
def addL (n : ℕ) (u v : List F) : List F := tab n fun k => coef u k + coef v k

theorem vecAdd_addL {n : ℕ} {u v : List F} (hu : u.length = n) (hv : v.length = n) :
    vecAdd u v = .ok (addL n u v) := by
  conv_lhs => rw [eq_tab hu, eq_tab hv]
  exact vecAdd_tab n _ _

/-- One of the last steps of a report: `agg_update` for each Aggregator. -/
theorem update_loop {ctx : Bytes} {A os : ℕ → List F} {seed : Option Bytes}
    (hA : ∀ j < P.shares, (A j).length = P.flp.outputLen)
    (ho : ∀ j < P.shares, (os j).length = P.flp.outputLen) :
    (forFold (List.range P.vdaf.shares) (tab P.shares A) fun aggShares j => do
      let s ← getI (tab P.shares fun j => (os j, seed)) j
      let outShare ← P.vdaf.verifyNextOut ctx s seed
      let a ← getI aggShares j
      let a ← P.vdaf.aggUpdate () a outShare
      setI aggShares j a) = .ok (tab P.shares fun j => addL P.flp.outputLen (A j) (os j)) := by
  have key : ∀ n ≤ P.shares, (forFold (List.range n) (tab P.shares A) fun aggShares j => do
      let s ← getI (tab P.shares fun j => (os j, seed)) j
      let outShare ← P.vdaf.verifyNextOut ctx s seed
      let a ← getI aggShares j
      let a ← P.vdaf.aggUpdate () a outShare
      setI aggShares j a) =
      .ok (tab P.shares fun j => if j < n then addL P.flp.outputLen (A j) (os j) else A j) := by
    intro n
    induction n with
    | zero => intro _; simp
    | succ n ih =>
      intro hn
      rw [List.range_succ, forFold_append, ih (by omega)]
      simp only [Except.ok_bind', forFold_cons, forFold_nil]
      rw [getI_tab (by omega)]
      simp only [Except.ok_bind']
      have : P.vdaf.verifyNextOut ctx (os n, seed) seed = .ok (os n) := by
        simp [VdafImpl.verifyNextOut, vdaf, verifyNext, raiseIf]
      rw [this]
      simp only [Except.ok_bind']
      rw [getI_tab (by omega)]
      simp only [Except.ok_bind', lt_irrefl, if_false]
      have : P.vdaf.aggUpdate () (A n) (os n) = .ok (addL P.flp.outputLen (A n) (os n)) :=
        vecAdd_addL (hA n (by omega)) (ho n (by omega))
      rw [this]
      simp only [Except.ok_bind']
      rw [setI_tab (by omega)]
      simp only [Except.ok_bind']
      congr 1
      apply tab_congr
      intro j hj
      by_cases hjn : j = n
      · subst hjn; simp
      · rw [Function.update_of_ne hjn]
        by_cases h1 : j < n
        · rw [if_pos h1, if_pos (by omega)]
        · rw [if_neg h1, if_neg (by omega)]
  rw [show P.vdaf.shares = P.shares from rfl, key _ le_rfl]
  congr 1
  apply tab_congr
  intro j hj
  rw [if_pos hj]

theorem Totals.add {A os : ℕ → List F} {T : ℕ → F} {o : List F} (h : P.Totals A T)
    (hs : Spec.IsSum (fun j : Fin P.shares => os j) o) :
    P.Totals (fun j => addL P.flp.outputLen (A j) (os j)) fun k => T k + coef o k := by
  refine ⟨fun j hj => by simp [addL], fun k hk => ?_⟩
  have h1 := (isSum_iff.1 hs).2 k
  rw [Fin.sum_univ_eq_sum_range fun j => coef (os j) k] at h1
  simp only [addL, coef_tab, if_pos hk]
  rw [sum_add_distrib, h.2 k hk, h1]

section
variable (W : P.WF) {ctx : Bytes} (hctx : ctx.length + 8 < 2 ^ 16)
include W hctx

theorem runVerify_gen {E : Err → Prop} {valid : Meas → Prop} {o' : Meas → ℕ → F} (H : RunFacts P.flp valid o') {vk : Bytes}
    {m : Meas} {meas o : List F} (hmeas : meas.length = P.flp.measLen) (ho : P.flp.truncate meas = .ok o)
    (hacc : ∀ jr : List F, jr.length = P.flp.jointRandLen → Spec.Accepts P.flp meas jr) {nonce rand : Bytes}
    (gS : Good E (P.shard ctx m nonce rand) fun r =>
      ∃ ms ps bl prs jrs π, P.Sharded ctx nonce meas r.1 r.2 ms ps bl prs jrs π)
    (gQ : Good E (P.queryRands vk ctx nonce) fun v => v.length = P.flp.queryRandLen * P.proofs) :
    Good (fun e => E e ∨ (e = rootOfUnityErr ∧ Spec.RootHit P vk ctx nonce))
      (P.vdaf.runVerify vk () ctx m nonce rand) fun r =>
      ∃ (os : ℕ → List F) (seed : Option Bytes), r = (tab P.shares fun j => (os j, seed), seed) ∧
        Spec.IsSum (fun j : Fin P.shares => os j) o ∧ o.length = P.flp.outputLen := by
  have hsh := W.shares_ge
  unfold VdafImpl.runVerify
  refine Good.bind (gS.weaken fun e h => .inl h) ?_
  rintro ⟨pub, ish⟩ - ⟨ms, ps, bl, prs, jrs, π, S⟩
  dsimp only at S ⊢
  obtain ⟨os', o', h1, h2, h3, h4⟩ := H.trunc _ _ S.measSum hmeas
  rw [ho] at h1; cases h1
  set os : ℕ → List F := fun j => if h : j < P.shares then os' ⟨j, h⟩ else [] with hos
  have hos' : ∀ j < P.shares, P.flp.truncate (ms j) = .ok (os j) := by
    intro j hj; simp only [hos, dif_pos hj]; exact h2 ⟨j, hj⟩
  have hsum : Spec.IsSum (fun j : Fin P.shares => os j) o := by
    have : (fun j : Fin P.shares => os j) = os' := by funext j; simp [hos]
    rw [this]; exact h3
  rcases verify_gen W hctx gQ hmeas hacc S hos' with ⟨seed, w, part, V⟩ | ⟨e, he1, he2⟩
  · have hmap : mapRes (fun j => do
        let inputShare ← getI ish j
        P.vdaf.verifyInit vk ctx j () nonce pub inputShare) (List.range P.vdaf.shares) =
        .ok (tab P.shares fun j => ((os j, seed), (w j, part j))) := by
      apply mapRes_range_tab
      intro j hj
      obtain ⟨s, hs1, hs2⟩ := V.init j hj
      rw [getI_of_some hs1]
      exact hs2
    rw [hmap]
    simp only [Except.ok_bind']
    have h0 : List.range (P.vdaf.rounds - 1) = [] := rfl
    have e1 : (tab P.shares fun j => ((os j, seed), (w j, part j))).map Prod.fst =
        tab P.shares fun j => (os j, seed) := by simp [tab, Function.comp_def]
    have e2 : (tab P.shares fun j => ((os j, seed), (w j, part j))).map Prod.snd =
        tab P.shares fun j => (w j, part j) := by simp [tab, Function.comp_def]
    rw [h0, forFold_nil, e1, e2]
    simp only [Except.ok_bind']
    have : P.vdaf.sharesToMessage ctx () (tab P.shares fun j => (w j, part j)) = .ok seed := V.msg
    rw [this]
    exact Good.ok ⟨os, seed, rfl, hsum, h4⟩
  · have : mapRes (fun j => do
        let inputShare ← getI ish j
        P.vdaf.verifyInit vk ctx j () nonce pub inputShare) (List.range P.vdaf.shares) =
        .error e := by
      apply mapRes_first_error (a := 0)
      · have : 0 < P.vdaf.shares := show 0 < P.shares by omega
        rw [List.head?_range]; simp; omega
      · obtain ⟨s, hs1, hs2⟩ := he2 0 (by omega)
        rw [getI_of_some hs1]
        exact hs2
    rw [this]
    exact Good.error he1

theorem runVerify_good {valid : Meas → Prop} {o' : Meas → ℕ → F} (H : RunFacts P.flp valid o') {vk : Bytes}
    (hvk : vk.length = X.seedSize) {m : Meas} {meas o : List F}
    (he : P.flp.encode m = .ok meas) (hmeas : meas.length = P.flp.measLen)
    (ho : P.flp.truncate meas = .ok o)
    (hacc : ∀ jr : List F, jr.length = P.flp.jointRandLen → Spec.Accepts P.flp meas jr)
    {nonce rand : Bytes}
    (hn : nonce.length = 16) (hr : rand.length = P.randSize) :
    Good (Spec.HonestFailure P vk ctx [nonce]) (P.vdaf.runVerify vk () ctx m nonce rand) fun r =>
      ∃ (os : ℕ → List F) (seed : Option Bytes), r = (tab P.shares fun j => (os j, seed), seed) ∧
        Spec.IsSum (fun j : Fin P.shares => os j) o ∧ o.length = P.flp.outputLen := by
  refine (runVerify_gen W hctx H hmeas ho hacc ((shard_good W hctx he hmeas hn hr).mono ?_)
    (queryRands_good W hctx hvk)).weaken ?_
  · rintro r - ⟨ms, ps, bl, prs, jrs, π, S, -, -, -⟩
    exact ⟨ms, ps, bl, prs, jrs, π, S⟩
  · rintro e (h | ⟨h1, h2⟩)
    · exact .inl h
    · exact .inr ⟨h1, nonce, by simp, h2⟩

theorem runVdaf_any {E : Err → Prop} {o : Meas → ℕ → F} {vk : Bytes}
    (hvk : vk.length = X.seedSize) {ms : List (Meas × Bytes × Bytes)}
    (hms : ∀ m ∈ ms, Good E (P.vdaf.runVerify vk () ctx m.1 m.2.1 m.2.2) fun r =>
      ∃ (os : ℕ → List F) (seed : Option Bytes), r = (tab P.shares fun j => (os j, seed), seed) ∧
        Spec.IsSum (fun j : Fin P.shares => os j) (tab P.flp.outputLen (o m.1))) {Q : Agg → Prop}
    (hdec : ∃ R, P.flp.decode (tab P.flp.outputLen fun k => (ms.map fun m => o m.1 k).sum) ms.length = .ok R ∧
      Q R) :
    Good E (runVdaf P.vdaf vk () ctx ms) Q := by
  unfold runVdaf
  rw [raiseIf_of_not (show ¬ (vk.length ≠ P.vdaf.verifyKeySize) from fun h => h hvk)]
  simp only [Except.ok_bind']
  have hinit : mapRes (fun _ => P.vdaf.aggInit ()) (List.range P.vdaf.shares) =
      .ok (tab P.shares fun _ => fieldZeros F P.flp.outputLen) :=
    mapRes_range_tab fun j _ => rfl
  rw [hinit]
  simp only [Except.ok_bind']
  have hloop : ∀ (l : List (Meas × Bytes × Bytes)) (A : ℕ → List F) (T : ℕ → F),
      l ⊆ ms → P.Totals A T →
      Good E (forFold l (tab P.shares A) fun aggShares (m, nonce, rand) =>
        P.vdaf.runReport vk () ctx aggShares m nonce rand) fun r =>
        ∃ A', r = tab P.shares A' ∧
          P.Totals A' fun k => T k + (l.map fun m => o m.1 k).sum := by
    intro l
    induction l with
    | nil =>
      intro A T _ hA
      exact Good.ok ⟨A, rfl, by simpa using hA⟩
    | cons m l ih =>
      intro A T hsub hA
      rw [forFold_cons]
      obtain ⟨m, nonce, rand⟩ := m
      have hrun := hms (m, nonce, rand) (hsub (List.mem_cons_self ..))
      dsimp only at hrun ⊢
      refine Good.bind (Q := fun r => ∃ A', r = tab P.shares A' ∧
          P.Totals A' fun k => T k + o m k) ?_ ?_
      · unfold VdafImpl.runReport
        refine hrun.bind ?_
        rintro _ - ⟨os, seed, rfl, hsum⟩
        dsimp only
        rw [update_loop hA.1 (fun j hj => by rw [hsum.1 ⟨j, hj⟩]; simp)]
        refine Good.ok ⟨_, rfl, ?_⟩
        have := hA.add hsum
        refine ⟨this.1, fun k hk => ?_⟩
        rw [this.2 k hk]
        dsimp only
        rw [coef_tab, if_pos hk]
      · rintro _ - ⟨A', rfl, hA'⟩
        refine (ih A' _ (fun m hm => hsub (by simp [hm])) hA').mono ?_
        rintro _ - ⟨A'', rfl, hA''⟩
        refine ⟨A'', rfl, hA''.1, fun k hk => ?_⟩
        rw [hA''.2 k hk]
        simp only [List.map_cons, List.sum_cons]
        ring
  have hz : P.Totals (fun _ => fieldZeros F P.flp.outputLen) fun _ => (0 : F) := by
    refine ⟨fun j _ => by simp [fieldZeros], fun k hk => ?_⟩
    apply sum_eq_zero
    intro j _
    rw [coef_of_lt (by simpa [fieldZeros] using hk)]
    simp [fieldZeros]
  refine (hloop ms _ _ (List.Subset.refl _) hz).bind ?_
  rintro _ - ⟨A, rfl, hA1, hA2⟩
  show Good E (P.unshard () (tab P.shares A) ms.length) _
  unfold unshard merge aggInit
  simp only [Except.ok_bind']
  have hzt : fieldZeros F P.flp.outputLen = tab P.flp.outputLen fun _ => 0 := by
    simp [fieldZeros, tab, List.map_const']
  have hcol : ∀ k, colsum (tab P.shares A) k = ∑ j ∈ range P.shares, coef (A j) k := by
    intro k
    unfold colsum tab
    rw [List.map_map]
    exact list_sum_range _ _
  rw [hzt, vecAdd_fold _ (by
    intro v hv
    simp only [tab, List.mem_map, List.mem_range] at hv
    obtain ⟨j, hj, rfl⟩ := hv
    exact hA1 j hj)]
  simp only [Except.ok_bind']
  have htot : (tab P.flp.outputLen fun j => (0 : F) + colsum (tab P.shares A) j) =
      tab P.flp.outputLen fun k => (ms.map fun m => o m.1 k).sum := by
    apply tab_congr
    intro k hk
    rw [hcol, hA2 k hk]
    dsimp only
    rw [zero_add, zero_add]
  rw [htot]
  obtain ⟨R, h1, h2⟩ := hdec
  rw [h1]
  exact Good.ok h2

theorem runVerify_honest {valid : Meas → Prop} {o : Meas → ℕ → F} (H : RunFacts P.flp valid o) {vk : Bytes}
    (hvk : vk.length = X.seedSize) {ms : List (Meas × Bytes × Bytes)}
    (hms : ∀ m ∈ ms, valid m.1 ∧ m.2.1.length = 16 ∧ m.2.2.length = P.randSize) (m : Meas × Bytes × Bytes) (hm : m ∈ ms) :
    Good (Spec.HonestFailure P vk ctx (ms.map fun m => m.2.1)) (P.vdaf.runVerify vk () ctx m.1 m.2.1 m.2.2) fun r =>
      ∃ (os : ℕ → List F) (seed : Option Bytes), r = (tab P.shares fun j => (os j, seed), seed) ∧
        Spec.IsSum (fun j : Fin P.shares => os j) (tab P.flp.outputLen (o m.1)) := by
  obtain ⟨m, nonce, rand⟩ := m
  obtain ⟨hv, hn, hr⟩ := hms _ hm
  dsimp only at hv hn hr ⊢
  obtain ⟨meas, he, hmeas, ho, hacc⟩ := H.enc m hv
  refine ((runVerify_good W hctx H hvk he hmeas ho hacc hn hr).weaken ?_).mono ?_
  · rintro e (h | ⟨h, n, hn, h'⟩)
    · exact .inl h
    · rw [List.mem_singleton.1 hn] at h'
      exact .inr ⟨h, nonce, List.mem_map.2 ⟨_, hm, rfl⟩, h'⟩
  · rintro _ - ⟨os, seed, rfl, hsum, -⟩
    exact ⟨os, seed, rfl, hsum⟩

theorem runVdaf_gen {valid : Meas → Prop} {o : Meas → ℕ → F} (H : RunFacts P.flp valid o) {vk : Bytes}
    (hvk : vk.length = X.seedSize) {ms : List (Meas × Bytes × Bytes)}
    (hms : ∀ m ∈ ms, valid m.1 ∧ m.2.1.length = 16 ∧ m.2.2.length = P.randSize) {Q : Agg → Prop}
    (hdec : ∃ R, P.flp.decode (tab P.flp.outputLen fun k => (ms.map fun m => o m.1 k).sum) ms.length = .ok R ∧
      Q R) :
    Good (Spec.HonestFailure P vk ctx (ms.map fun m => m.2.1)) (runVdaf P.vdaf vk () ctx ms) Q := by
  exact runVdaf_any W hctx hvk (runVerify_honest W hctx H hvk hms) hdec

theorem runVdaf_facts {E : Err → Prop} {fn : Spec.Fun Meas Agg} (H : Facts P.flp fn) {vk : Bytes}
    (hvk : vk.length = X.seedSize) {ms : List (Meas × Bytes × Bytes)} (hms : ∀ m ∈ ms, fn.valid m.1)
    (hrun : ∀ o : Meas → ℕ → F, RunFacts P.flp fn.valid o → ∀ m ∈ ms,
      Good E (P.vdaf.runVerify vk () ctx m.1 m.2.1 m.2.2) fun r =>
        ∃ (os : ℕ → List F) (seed : Option Bytes), r = (tab P.shares fun j => (os j, seed), seed) ∧
          Spec.IsSum (fun j : Fin P.shares => os j) (tab P.flp.outputLen (o m.1))) :
    Good E (runVdaf P.vdaf vk () ctx ms) fun R =>
      fn.totals R = (fn.totals (fn.agg (ms.map Prod.fst))).map (· % PyField.modulus F) ∧
      ((∀ n ∈ fn.totals (fn.agg (ms.map Prod.fst)), n < PyField.modulus F) →
        R = fn.agg (ms.map Prod.fst)) := by
  obtain ⟨ints, of, h1, h2, h3, h4⟩ := H.enc
  have H' : RunFacts P.flp fn.valid fun m j => (ints m j : F) := by
    refine ⟨fun es e => H.trunc es e, fun m hm => ?_⟩
    obtain ⟨e, a, b, c⟩ := h1 m hm
    exact ⟨e, a, b, c, fun jr hjr => ⟨_, H.accept m e hm a jr hjr, fun x hx => (List.mem_replicate.1 hx).2⟩⟩
  refine runVdaf_any W hctx hvk (hrun _ H') ⟨_, h2 _ _ (by simp), ?_⟩
  have htot : (tab P.flp.outputLen fun k => (ms.map fun m => (ints m.1 k : F)).sum).map PyField.toNat =
      tab P.flp.outputLen fun k => ((ms.map fun m => ints m.1 k).sum) % PyField.modulus F := by
    unfold tab
    rw [List.map_map]
    apply List.map_congr_left
    intro k hk
    simp only [Function.comp]
    rw [← toNat_natCast_mod, Nat.cast_list_sum, List.map_map]
    rfl
  rw [htot]
  have hagg := h4 (ms.map Prod.fst) (by
    intro m hm
    obtain ⟨x, hx, rfl⟩ := List.mem_map.1 hm
    exact hms x hx)
  simp only [List.map_map, Function.comp_def] at hagg
  refine ⟨?_, fun hsmall => ?_⟩
  · rw [hagg, h3 _ (by simp), h3 _ (by simp)]
    simp [tab]
  · rw [hagg, h3 _ (by simp)] at hsmall
    rw [hagg]
    congr 1
    apply tab_congr
    intro k hk
    apply Nat.mod_eq_of_lt
    apply hsmall
    simp only [tab, List.mem_map, List.mem_range]
    exact ⟨k, hk, rfl⟩

theorem runVdaf_good {fn : Spec.Fun Meas Agg} (H : Facts P.flp fn) {vk : Bytes}
    (hvk : vk.length = X.seedSize) {ms : List (Meas × Bytes × Bytes)}
    (hms : ∀ m ∈ ms, fn.valid m.1 ∧ m.2.1.length = 16 ∧ m.2.2.length = P.randSize) :
    Good (Spec.HonestFailure P vk ctx (ms.map fun m => m.2.1)) (runVdaf P.vdaf vk () ctx ms) fun R =>
      fn.totals R = (fn.totals (fn.agg (ms.map Prod.fst))).map (· % PyField.modulus F) ∧
      ((∀ n ∈ fn.totals (fn.agg (ms.map Prod.fst)), n < PyField.modulus F) →
        R = fn.agg (ms.map Prod.fst)) := by
  refine runVdaf_facts W hctx H hvk (fun m hm => (hms m hm).1) fun o H' m hm => ?_
  exact runVerify_honest W hctx H' hvk hms m hm

end
end Prio3
end Vdaf
