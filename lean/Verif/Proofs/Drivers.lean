import Verif.Spec.Vdaf
import Verif.Proofs.Py

/-! `run_daf` and `run_vdaf` process the reports separately. -/

namespace Vdaf

theorem mapRes_range_iff {α : Type} {f : ℕ → Res α} {n : ℕ} {r : List α} :
    mapRes f (List.range n) = .ok r ↔
      r.length = n ∧ ∀ j < n, ∃ b, f j = .ok b ∧ r[j]? = some b := by
  constructor
  · intro h
    have hl : r.length = n := by simpa using mapRes_length h
    refine ⟨hl, fun j hj => ⟨r[j], ?_, by simp⟩⟩
    have := mapRes_getElem h j (by simpa using hj) (by omega)
    simpa using this
  · rintro ⟨hl, h⟩
    obtain ⟨r', hr'⟩ := mapRes_ok_of f (List.range n) (fun a ha => by
      obtain ⟨b, hb, -⟩ := h a (List.mem_range.1 ha)
      exact ⟨b, hb⟩)
    rw [hr']
    congr 1
    have hl' : r'.length = n := by simpa using mapRes_length hr'
    apply List.ext_getElem?
    intro i
    by_cases hi : i < n
    · obtain ⟨b, hb, hr⟩ := h i hi
      have := mapRes_getElem hr' i (by simpa using hi) (by omega)
      rw [List.getElem_range, hb] at this
      cases this
      rw [hr]
      simp
    · rw [List.getElem?_eq_none (by omega), List.getElem?_eq_none (by omega)]

section
variable {A O : Type}

/-- The loop over the Aggregators. -/
theorem aggLoop_iff (f : ℕ → Res O) (upd : A → O → Res A) (k : ℕ) (as as' : List A) :
    forFold (List.range k) as (fun as j => do
      let o ← f j
      let a ← getI as j
      let a ← upd a o
      setI as j a) = .ok as' ↔
    as'.length = as.length ∧
    (∀ j < k, ∃ o a b, f j = .ok o ∧ as[j]? = some a ∧ upd a o = .ok b ∧ as'[j]? = some b) ∧
    ∀ j, k ≤ j → as'[j]? = as[j]? := by
  induction k generalizing as' with
  | zero =>
    simp only [List.range_zero, forFold_nil, Except.ok.injEq]
    constructor
    · rintro rfl; simp
    · rintro ⟨-, -, h⟩
      exact (List.ext_getElem? fun j => h j (Nat.zero_le _)).symm
  | succ k ih =>
    rw [List.range_succ, forFold_append, Except.bind_eq_ok]
    constructor
    · rintro ⟨c, h1, h2⟩
      obtain ⟨l1, p1, q1⟩ := (ih c).1 h1
      rw [forFold_cons] at h2
      rw [Except.bind_eq_ok] at h2
      obtain ⟨d, h2, h3⟩ := h2
      cases h3
      rw [Except.bind_eq_ok] at h2
      obtain ⟨o, ho, h2⟩ := h2
      rw [Except.bind_eq_ok] at h2
      obtain ⟨a, ha, h2⟩ := h2
      rw [Except.bind_eq_ok] at h2
      obtain ⟨b, hb, h2⟩ := h2
      obtain ⟨hk, rfl⟩ := setI_eq_ok.1 h2
      rw [getI_eq_ok, q1 k le_rfl] at ha
      refine ⟨by simp [l1], ?_, ?_⟩
      · intro j hj
        rcases Nat.lt_succ_iff_lt_or_eq.1 hj with hj | rfl
        · obtain ⟨o, a, b, e1, e2, e3, e4⟩ := p1 j hj
          exact ⟨o, a, b, e1, e2, e3, by rw [List.getElem?_set_ne (by omega)]; exact e4⟩
        · exact ⟨o, a, b, ho, ha, hb, List.getElem?_set_self hk⟩
      · intro j hj
        rw [List.getElem?_set_ne (by omega)]
        exact q1 j (by omega)
    · rintro ⟨l1, p1, q1⟩
      obtain ⟨o, a, b, e1, e2, e3, e4⟩ := p1 k (Nat.lt_succ_self _)
      have hk : k < as'.length := (List.getElem?_eq_some_iff.1 e4).1
      refine ⟨as'.set k a, (ih _).2 ⟨by simp [l1], ?_, ?_⟩, ?_⟩
      · intro j hj
        obtain ⟨o, a', b, e1, e2, e3, e4⟩ := p1 j (by omega)
        exact ⟨o, a', b, e1, e2, e3, by rw [List.getElem?_set_ne (by omega)]; exact e4⟩
      · intro j hj
        rcases hj.eq_or_lt with rfl | hj
        · rw [List.getElem?_set_self hk, e2]
        · rw [List.getElem?_set_ne (by omega)]; exact q1 j hj
      · rw [forFold_cons]
        rw [e1]
        simp only [Except.ok_bind']
        rw [getI_of_some (List.getElem?_set_self hk)]
        simp only [Except.ok_bind']
        rw [e3]
        simp only [Except.ok_bind']
        rw [setI_of_lt (by simpa using hk), List.set_set]
        simp only [Except.ok_bind', forFold_nil, Except.ok.injEq]
        apply List.ext_getElem?
        intro i
        by_cases hi : i = k
        · subst hi; rw [List.getElem?_set_self hk, e4]
        · rw [List.getElem?_set_ne (Ne.symm hi)]

/-- The loop over the reports. -/
theorem reportLoop_iff {R : Type} {n : ℕ} (out : R → Res (List O)) (upd : A → O → Res A)
    (step : List A → R → Res (List A))
    (hout : ∀ r os, out r = .ok os → os.length = n)
    (hstep : ∀ as as' r, as.length = n → (step as r = .ok as' ↔ as'.length = n ∧
      ∃ os, out r = .ok os ∧ ∀ j < n, ∃ o a b, os[j]? = some o ∧ as[j]? = some a ∧
        upd a o = .ok b ∧ as'[j]? = some b))
    (rs : List R) (as as' : List A) (hl : as.length = n) :
    forFold rs as step = .ok as' ↔ as'.length = n ∧ ∃ outs, mapRes out rs = .ok outs ∧
      ∀ j < n, ∃ os a b, mapRes (fun o => getI o j) outs = .ok os ∧ as[j]? = some a ∧
        forFold os a upd = .ok b ∧ as'[j]? = some b := by
  induction rs generalizing as with
  | nil =>
    simp only [forFold_nil, Except.ok.injEq, mapRes_nil]
    constructor
    · rintro rfl
      refine ⟨hl, [], rfl, fun j hj => ⟨[], as[j], as[j], rfl, by simp, rfl, by simp⟩⟩
    · rintro ⟨hl', outs, rfl, h⟩
      apply List.ext_getElem?
      intro j
      by_cases hj : j < n
      · obtain ⟨os, a, b, e1, e2, e3, e4⟩ := h j hj
        cases e1; cases e3
        rw [e2, e4]
      · rw [List.getElem?_eq_none (by omega), List.getElem?_eq_none (by omega)]
  | cons r rs ih =>
    rw [forFold_cons, Except.bind_eq_ok]
    constructor
    · rintro ⟨c, h1, h2⟩
      obtain ⟨lc, os, ho, hj⟩ := (hstep as c r hl).1 h1
      obtain ⟨l', outs, h3, h4⟩ := (ih c lc).1 h2
      refine ⟨l', os :: outs, by rw [mapRes_cons, ho, h3]; rfl, ?_⟩
      intro j hjn
      obtain ⟨o, a, b, e1, e2, e3, e4⟩ := hj j hjn
      obtain ⟨os', b', d, f1, f2, f3, f4⟩ := h4 j hjn
      rw [e4] at f2
      cases f2
      refine ⟨o :: os', a, d, ?_, e2, ?_, f4⟩
      · rw [mapRes_cons, getI_of_some e1, f1]; rfl
      · rw [forFold_cons, e3]; exact f3
    · rintro ⟨l', outs, h1, h2⟩
      rw [mapRes_cons, Except.bind_eq_ok] at h1
      obtain ⟨os, ho, h1⟩ := h1
      rw [Except.bind_eq_ok] at h1
      obtain ⟨outs', ho', h1⟩ := h1
      cases h1
      have key : ∀ j : Fin n, ∃ b, ∃ o a os' d, os[(j : ℕ)]? = some o ∧ as[(j : ℕ)]? = some a ∧
          upd a o = .ok b ∧ mapRes (fun o => getI o j) outs' = .ok os' ∧
          forFold os' b upd = .ok d ∧ as'[(j : ℕ)]? = some d := by
        intro j
        obtain ⟨os1, a, d, e1, e2, e3, e4⟩ := h2 j j.2
        rw [mapRes_cons, Except.bind_eq_ok] at e1
        obtain ⟨o, f1, e1⟩ := e1
        rw [Except.bind_eq_ok] at e1
        obtain ⟨os', f2, e1⟩ := e1
        cases e1
        rw [forFold_cons, Except.bind_eq_ok] at e3
        obtain ⟨b, f3, e3⟩ := e3
        exact ⟨b, o, a, os', d, getI_eq_ok.1 f1, e2, f3, f2, e3, e4⟩
      choose b hb using key
      refine ⟨List.ofFn b, (hstep _ _ _ hl).2 ⟨by simp, os, ho, ?_⟩,
        (ih _ (by simp)).2 ⟨l', outs', ho', ?_⟩⟩
      · intro j hj
        obtain ⟨o, a, os', d, f1, f2, f3, f4, f5, f6⟩ := hb ⟨j, hj⟩
        exact ⟨o, a, b ⟨j, hj⟩, f1, f2, f3, by simp [hj]⟩
      · intro j hj
        obtain ⟨o, a, os', d, f1, f2, f3, f4, f5, f6⟩ := hb ⟨j, hj⟩
        exact ⟨os', b ⟨j, hj⟩, d, f4, by simp [hj], f5, f6⟩

end

section
variable {Meas AggParam PubShare InShare OutShare AggShare AggRes VState VShare VMsg : Type}
variable (V : VdafImpl Meas AggParam PubShare InShare OutShare AggShare AggRes VState VShare VMsg)

theorem runReport_iff {vk : Bytes} {p : AggParam} {ctx : Bytes} (as as' : List AggShare)
    (r : Meas × Bytes × Bytes) (hl : as.length = V.shares) :
    V.runReport vk p ctx as r.1 r.2.1 r.2.2 = .ok as' ↔ as'.length = V.shares ∧
      ∃ os, Spec.outShares V vk p ctx r = .ok os ∧ ∀ j < V.shares, ∃ o a b, os[j]? = some o ∧
        as[j]? = some a ∧ V.aggUpdate p a o = .ok b ∧ as'[j]? = some b := by
  unfold VdafImpl.runReport Spec.outShares
  rcases hv : V.runVerify vk p ctx r.1 r.2.1 r.2.2 with e | ⟨st, msg⟩
  · simp
  · simp only [Except.ok_bind']
    have h := aggLoop_iff (fun j => do
      let s ← getI st j
      V.verifyNextOut ctx s msg) (fun a o => V.aggUpdate p a o) V.shares as as'
    simp only [bind_assoc] at h
    rw [h]
    constructor
    · rintro ⟨l, h1, -⟩
      have hex : ∀ a ∈ List.range V.shares, ∃ b, (do
          let s ← getI st a
          V.verifyNextOut ctx s msg) = .ok b := by
        intro j hj
        obtain ⟨o, a, b, e1, -⟩ := h1 j (List.mem_range.1 hj)
        exact ⟨o, e1⟩
      obtain ⟨os, hos⟩ := mapRes_ok_of _ _ hex
      refine ⟨by omega, os, hos, ?_⟩
      intro j hj
      obtain ⟨o, a, b, e1, e2, e3, e4⟩ := h1 j hj
      obtain ⟨o', f1, f2⟩ := (mapRes_range_iff.1 hos).2 j hj
      rw [e1] at f1; cases f1
      exact ⟨o, a, b, f2, e2, e3, e4⟩
    · rintro ⟨l, os, hos, h1⟩
      refine ⟨by omega, ?_, ?_⟩
      · intro j hj
        obtain ⟨o, a, b, e1, e2, e3, e4⟩ := h1 j hj
        obtain ⟨o', f1, f2⟩ := (mapRes_range_iff.1 hos).2 j hj
        rw [e1] at f2; cases f2
        exact ⟨o, a, b, f1, e2, e3, e4⟩
      · intro j hj
        rw [List.getElem?_eq_none (by omega), List.getElem?_eq_none (by omega)]

theorem outShares_length {vk : Bytes} {p : AggParam} {ctx : Bytes} (r : Meas × Bytes × Bytes)
    (os : List OutShare) (h : Spec.outShares V vk p ctx r = .ok os) : os.length = V.shares := by
  unfold Spec.outShares at h
  rw [Except.bind_eq_ok] at h
  obtain ⟨⟨st, msg⟩, -, h⟩ := h
  simpa using mapRes_length h

theorem runVdaf_iff {vk : Bytes} {p : AggParam} {ctx : Bytes} {rs : List (Meas × Bytes × Bytes)}
    {R : AggRes} : runVdaf V vk p ctx rs = .ok R ↔
      vk.length = V.verifyKeySize ∧ Spec.separately V vk p ctx rs = .ok R := by
  unfold runVdaf
  rw [Except.bind_eq_ok]
  have hr : (∃ a, raiseIf (decide (vk.length ≠ V.verifyKeySize)) "incorrect verify_key size" = .ok a) ↔
      vk.length = V.verifyKeySize := by
    unfold raiseIf
    by_cases h : vk.length = V.verifyKeySize <;> simp [h]
  rw [exists_and_right, hr]
  apply and_congr_right
  intro _
  unfold Spec.separately
  have hloop := fun (as as' : List AggShare) (hl : as.length = V.shares) =>
    reportLoop_iff (n := V.shares) (Spec.outShares V vk p ctx) (fun a o => V.aggUpdate p a o)
      (fun as (r : Meas × Bytes × Bytes) => V.runReport vk p ctx as r.1 r.2.1 r.2.2)
      (outShares_length V) (fun as as' r hl => runReport_iff V as as' r hl) rs as as' hl
  constructor
  · intro h
    rw [Except.bind_eq_ok] at h
    obtain ⟨as, h1, h⟩ := h
    rw [Except.bind_eq_ok] at h
    obtain ⟨as', h2, h⟩ := h
    obtain ⟨la, ha⟩ := mapRes_range_iff.1 h1
    obtain ⟨la', outs, ho, hj⟩ := (hloop as as' la).1 h2
    rw [ho]
    simp only [Except.ok_bind']
    rw [(mapRes_range_iff (r := as')).2 ⟨la', ?_⟩]
    · exact h
    · intro j hjn
      obtain ⟨os, a, b, e1, e2, e3, e4⟩ := hj j hjn
      obtain ⟨a', f1, f2⟩ := ha j hjn
      rw [e2] at f2; cases f2
      refine ⟨b, ?_, e4⟩
      rw [e1]
      simp only [Except.ok_bind']
      unfold Spec.aggregate
      rw [f1]
      exact e3
  · intro h
    rw [Except.bind_eq_ok] at h
    obtain ⟨outs, h1, h⟩ := h
    rw [Except.bind_eq_ok] at h
    obtain ⟨as', h2, h⟩ := h
    obtain ⟨la, ha⟩ := mapRes_range_iff.1 h2
    have hinit : ∀ a ∈ List.range V.shares, ∃ b, (fun _ => V.aggInit p) a = .ok b := by
      intro j hj
      obtain ⟨b, e, -⟩ := ha j (List.mem_range.1 hj)
      rw [Except.bind_eq_ok] at e
      obtain ⟨os, -, e⟩ := e
      unfold Spec.aggregate at e
      rw [Except.bind_eq_ok] at e
      obtain ⟨a, e, -⟩ := e
      exact ⟨a, e⟩
    obtain ⟨as, has⟩ := mapRes_ok_of _ _ hinit
    rw [has]
    simp only [Except.ok_bind']
    obtain ⟨la1, ha1⟩ := mapRes_range_iff.1 has
    rw [(hloop as as' la1).2 ⟨la, outs, h1, ?_⟩]
    · exact h
    · intro j hj
      obtain ⟨b, e, e'⟩ := ha j hj
      rw [Except.bind_eq_ok] at e
      obtain ⟨os, e1, e⟩ := e
      unfold Spec.aggregate at e
      rw [Except.bind_eq_ok] at e
      obtain ⟨a, e2, e3⟩ := e
      obtain ⟨a', f1, f2⟩ := ha1 j hj
      rw [e2] at f1; cases f1
      exact ⟨os, a, b, e1, f2, e3, e'⟩

end

section
variable {Meas AggParam PubShare InShare OutShare AggShare AggRes : Type}
variable (D : DafImpl Meas AggParam PubShare InShare OutShare AggShare AggRes)

theorem dafReport_iff {p : AggParam} {ctx : Bytes} (as as' : List AggShare)
    (r : Meas × Bytes × Bytes) (hl : as.length = D.shares) :
    D.runReport ctx p as r.1 r.2.1 r.2.2 = .ok as' ↔ as'.length = D.shares ∧
      ∃ os, Spec.dafOutShares D ctx p r = .ok os ∧ ∀ j < D.shares, ∃ o a b, os[j]? = some o ∧
        as[j]? = some a ∧ D.aggUpdate p a o = .ok b ∧ as'[j]? = some b := by
  unfold DafImpl.runReport Spec.dafOutShares
  rcases hv : D.shard ctx r.1 r.2.1 r.2.2 with e | ⟨pub, ish⟩
  · simp
  · simp only [Except.ok_bind']
    have h := aggLoop_iff (fun j => do
      let s ← getI ish j
      D.prep ctx j p r.2.1 pub s) (fun a o => D.aggUpdate p a o) D.shares as as'
    simp only [bind_assoc] at h
    rw [h]
    constructor
    · rintro ⟨l, h1, -⟩
      have hex : ∀ a ∈ List.range D.shares, ∃ b, (do
          let s ← getI ish a
          D.prep ctx a p r.2.1 pub s) = .ok b := by
        intro j hj
        obtain ⟨o, a, b, e1, -⟩ := h1 j (List.mem_range.1 hj)
        exact ⟨o, e1⟩
      obtain ⟨os, hos⟩ := mapRes_ok_of _ _ hex
      refine ⟨by omega, os, hos, ?_⟩
      intro j hj
      obtain ⟨o, a, b, e1, e2, e3, e4⟩ := h1 j hj
      obtain ⟨o', f1, f2⟩ := (mapRes_range_iff.1 hos).2 j hj
      rw [e1] at f1; cases f1
      exact ⟨o, a, b, f2, e2, e3, e4⟩
    · rintro ⟨l, os, hos, h1⟩
      refine ⟨by omega, ?_, ?_⟩
      · intro j hj
        obtain ⟨o, a, b, e1, e2, e3, e4⟩ := h1 j hj
        obtain ⟨o', f1, f2⟩ := (mapRes_range_iff.1 hos).2 j hj
        rw [e1] at f2; cases f2
        exact ⟨o, a, b, f1, e2, e3, e4⟩
      · intro j hj
        rw [List.getElem?_eq_none (by omega), List.getElem?_eq_none (by omega)]

theorem dafOutShares_length {p : AggParam} {ctx : Bytes} (r : Meas × Bytes × Bytes)
    (os : List OutShare) (h : Spec.dafOutShares D ctx p r = .ok os) : os.length = D.shares := by
  unfold Spec.dafOutShares at h
  rw [Except.bind_eq_ok] at h
  obtain ⟨⟨st, msg⟩, -, h⟩ := h
  simpa using mapRes_length h

theorem runDaf_iff {p : AggParam} {ctx : Bytes} {rs : List (Meas × Bytes × Bytes)}
    {R : AggRes} : runDaf D ctx p rs = .ok R ↔ Spec.dafSeparately D ctx p rs = .ok R := by
  unfold runDaf Spec.dafSeparately
  have hloop := fun (as as' : List AggShare) (hl : as.length = D.shares) =>
    reportLoop_iff (n := D.shares) (Spec.dafOutShares D ctx p) (fun a o => D.aggUpdate p a o)
      (fun as (r : Meas × Bytes × Bytes) => D.runReport ctx p as r.1 r.2.1 r.2.2)
      (dafOutShares_length D) (fun as as' r hl => dafReport_iff D as as' r hl) rs as as' hl
  constructor
  · intro h
    rw [Except.bind_eq_ok] at h
    obtain ⟨as, h1, h⟩ := h
    rw [Except.bind_eq_ok] at h
    obtain ⟨as', h2, h⟩ := h
    obtain ⟨la, ha⟩ := mapRes_range_iff.1 h1
    obtain ⟨la', outs, ho, hj⟩ := (hloop as as' la).1 h2
    rw [ho]
    simp only [Except.ok_bind']
    rw [(mapRes_range_iff (r := as')).2 ⟨la', ?_⟩]
    · exact h
    · intro j hjn
      obtain ⟨os, a, b, e1, e2, e3, e4⟩ := hj j hjn
      obtain ⟨a', f1, f2⟩ := ha j hjn
      rw [e2] at f2; cases f2
      refine ⟨b, ?_, e4⟩
      rw [e1]
      simp only [Except.ok_bind']
      rw [f1]
      exact e3
  · intro h
    rw [Except.bind_eq_ok] at h
    obtain ⟨outs, h1, h⟩ := h
    rw [Except.bind_eq_ok] at h
    obtain ⟨as', h2, h⟩ := h
    obtain ⟨la, ha⟩ := mapRes_range_iff.1 h2
    have hinit : ∀ a ∈ List.range D.shares, ∃ b, (fun _ => D.aggInit p) a = .ok b := by
      intro j hj
      obtain ⟨b, e, -⟩ := ha j (List.mem_range.1 hj)
      rw [Except.bind_eq_ok] at e
      obtain ⟨os, -, e⟩ := e
      rw [Except.bind_eq_ok] at e
      obtain ⟨a, e, -⟩ := e
      exact ⟨a, e⟩
    obtain ⟨as, has⟩ := mapRes_ok_of _ _ hinit
    rw [has]
    simp only [Except.ok_bind']
    obtain ⟨la1, ha1⟩ := mapRes_range_iff.1 has
    rw [(hloop as as' la1).2 ⟨la, outs, h1, ?_⟩]
    · exact h
    · intro j hj
      obtain ⟨b, e, e'⟩ := ha j hj
      rw [Except.bind_eq_ok] at e
      obtain ⟨os, e1, e⟩ := e
      rw [Except.bind_eq_ok] at e
      obtain ⟨a, e2, e3⟩ := e
      obtain ⟨a', f1, f2⟩ := ha1 j hj
      rw [e2] at f1; cases f1
      exact ⟨os, a, b, e1, f2, e3, e'⟩

end
end Vdaf
