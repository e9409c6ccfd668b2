import Verif.Proofs.PoplarTau

/-! The attack on the two families of reports: the replies are the same. -/

set_option linter.unusedSectionVars false

namespace Vdaf.PO
open Spec (poplarIdpf levelKind sumAB isOn sketchOf Askable TreeReply TreeMove Memory Progress TreeView treeRespond treePlay)

/-! ### The beginning of the verification -/

/-- The output shares for two measurements -/
def OutRel (alpha alpha' : List Bool) (prefixes : List (List Bool)) (κ : Kind) (out out' : List (Fk κ)) : Prop :=
  ∃ ys : List (Fk κ), ys.length = prefixes.length ∧ out = List.zipWith (fun p y => isOn κ alpha p - y) prefixes ys ∧
    out' = List.zipWith (fun p y => isOn κ alpha' p - y) prefixes ys

inductive StRel (bits : ℕ) (alpha alpha' : List Bool) (param : Poplar1AggParam) : Poplar1VerifyState → Poplar1VerifyState → Prop where
  | evaluate {A B id : Fk (levelKind bits param.1)} {out out' : List (Fk (levelKind bits param.1))} (h : OutRel alpha alpha' param.2 _ out out') :
    StRel bits alpha alpha' param ⟨.evaluate, param.1, ⟨levelKind bits param.1, [A, B, id] ++ out⟩⟩
      ⟨.evaluate, param.1, ⟨levelKind bits param.1, [A, B, id] ++ out'⟩⟩
  | reveal {out out' : List (Fk (levelKind bits param.1))} (h : OutRel alpha alpha' param.2 _ out out') :
    StRel bits alpha alpha' param ⟨.reveal, param.1, ⟨levelKind bits param.1, out⟩⟩ ⟨.reveal, param.1, ⟨levelKind bits param.1, out'⟩⟩

theorem mapRes_zip {α β γ : Type} (g : α → Res β) (h : α → β → γ) (l : List α) :
    mapRes (fun a => g a >>= fun b => .ok (h a b)) l = (mapRes g l >>= fun bs => .ok (List.zipWith h l bs)) := by
  induction l with
  | nil => rfl
  | cons a l ih =>
    simp only [mapRes_cons, ih]
    cases g a with
    | error e => rfl
    | ok b =>
      simp only [Except.ok_bind']
      cases mapRes g l <;> rfl

theorem pairs_of {F : Type} {ys : List (List F)} (h : ∀ y ∈ ys, y.length = 2) : ∃ ps : List (F × F), ys = ps.map fun y => [y.1, y.2] := by
  induction ys with
  | nil => exact ⟨[], rfl⟩
  | cons y ys ih =>
    obtain ⟨ps, hps⟩ := ih fun y hy => h y (List.mem_cons_of_mem _ hy)
    obtain ⟨u, v, rfl⟩ := List.length_eq_two.1 (h y List.mem_cons_self)
    exact ⟨(u, v) :: ps, by rw [hps]; rfl⟩

theorem honest_zip (κ : Kind) (alpha : List Bool) (k : Fk κ) (prefixes : List (List Bool)) (ps : List (Fk κ × Fk κ)) :
    List.zipWith (honestVal κ alpha k) prefixes (ps.map fun y => [y.1, y.2]) =
      List.zipWith (fun d h => [d, h]) (List.zipWith (fun p y => isOn _ alpha p - y.1) prefixes ps)
        (List.zipWith (fun p y => isOn _ alpha p * k - y.2) prefixes ps) := by
  induction prefixes generalizing ps with
  | nil => rfl
  | cons p prefixes ih =>
    cases ps with
    | nil => rfl
    | cons y ps =>
      simp only [List.map_cons, List.zipWith_cons_cons, ih]
      rfl

section
variable {bits fuel : ℕ} {prims : Prims} {verifyKey ctx nonce : Bytes} {b : ℕ} {alpha alpha' : List Bool} {key : Bytes} {s s' : Sh}
  {param : Poplar1AggParam}

theorem rows_ok {κ : Kind} {ds hs : List (Fk κ)} {n : ℕ} (h1 : ds.length = n) (h2 : hs.length = n) :
    ∀ i < n, Poplar1.RowOk (List.zipWith (fun d h => [d, h]) ds hs) i := by
  intro i hi
  exact ⟨_, List.getElem?_eq_getElem (by simp; omega), by simp⟩

theorem hinit_alike (hp : Askable bits param) (h1 : s'.pub = s.pub) (h2 : s'.corr = s.corr) {x x' : Fk (levelKind bits param.1)}
    (hx : ∀ rs, (⟨poplarIdpf bits⟩ : Poplar1).verifyRand prims fuel verifyKey ctx nonce param.1 param.2.length = .ok rs →
      x = onSum alpha param.2 rs ∧ x' = onSum alpha' param.2 rs)
    (hrl : ∀ rs, (⟨poplarIdpf bits⟩ : Poplar1).verifyRand prims fuel verifyKey ctx nonce param.1 param.2.length = .ok rs →
      rs.length = param.2.length)
    (hk : s'.V.k param.1 _ = (shiftScalars x x' (s.V.k param.1 _, s.V.tri (1 - b) param.1 _, (0, 0))).1)
    (ht : s'.V.tri (1 - b) param.1 _ = (shiftScalars x x' (s.V.k param.1 _, s.V.tri (1 - b) param.1 _, (0, 0))).2.1)
    {st : Poplar1VerifyState} {share : FieldVec}
    (h : hinit bits fuel prims verifyKey ctx nonce b alpha key s param = .ok (st, share)) :
    ∃ st', hinit bits fuel prims verifyKey ctx nonce b alpha' key s' param = .ok (st', share) ∧ StRel bits alpha alpha' param st st' := by
  obtain ⟨-, -, hnd, hlen⟩ := hp
  have hshare : s'.share [] [] (1 - b) = s.share [] [] (1 - b) := by unfold Sh.share; rw [h2]
  unfold hinit at h ⊢
  rw [hshare, h1]
  rw [mapRes_zip] at h ⊢
  cases hys : mapRes (fun p => (poplarIdpf bits).evalPrefix prims fuel b s.pub key param.1 ctx nonce p) param.2 with
  | error _ => rw [hys] at h; cases h
  | ok ys =>
    rw [hys] at h
    simp only [Except.ok_bind'] at h ⊢
    have hl2 : ∀ y ∈ ys, y.length = 2 := by
      intro y hy
      obtain ⟨i, hi, rfl⟩ := List.mem_iff_getElem.1 hy
      have hf := (mapRes_ok_iff _ _ _).1 hys
      exact Idpf.evalPrefix_row (hf.get (by rw [hf.length_eq]; exact hi) hi)
    have hyl : ys.length = param.2.length := ((mapRes_ok_iff _ _ _).1 hys).length_eq.symm
    obtain ⟨ps, rfl⟩ := pairs_of hl2
    rw [List.length_map] at hyl
    rw [honest_zip] at h ⊢
    generalize Poplar1.abShares param.1 (s.share [] [] (1 - b)).corrInner (s.share [] [] (1 - b)).corrLeaf (levelKind bits param.1) = ab at h ⊢
    match ab, h with
    | [A, B], h =>
      unfold vtail at h ⊢
      obtain ⟨rs, hrs, h⟩ := Except.bind_eq_ok.1 h
      obtain ⟨⟨sk, out⟩, hsk, h⟩ := Except.bind_eq_ok.1 h
      dsimp only at h
      obtain ⟨id, hid, h⟩ := Except.bind_eq_ok.1 h
      cases h
      obtain ⟨hx1, hx2⟩ := hx rs hrs
      have hr := hrl rs hrs
      have ld : ∀ a, (List.zipWith (fun p y => isOn (levelKind bits param.1) a p - y.1) param.2 ps).length = rs.length := by
        intro a; simp [hyl, hr]
      have lh : ∀ a (k : Fk (levelKind bits param.1)), (List.zipWith (fun p y => isOn (levelKind bits param.1) a p * k - y.2) param.2 ps).length = rs.length := by
        intro a k; simp [hyl, hr]
      have hsk' := (Poplar1.sketch_iff _ _ _ _).1 hsk
      obtain ⟨-, hres⟩ := hsk'
      rw [Poplar1.sums_zip (ld _) (lh _ _), ← ld alpha, Poplar1.outs_zip ((ld _).trans (lh _ _).symm), Prod.mk.injEq] at hres
      obtain ⟨rfl, rfl⟩ := hres
      have hsk2 := (Poplar1.sketch_iff (s'.V.tri (1 - b) param.1 (levelKind bits param.1)) _ rs _).2
        ⟨rows_ok (ld alpha') (lh alpha' (s'.V.k param.1 (levelKind bits param.1))), rfl⟩
      rw [Poplar1.sums_zip (ld _) (lh _ _), ← ld alpha', Poplar1.outs_zip ((ld _).trans (lh _ _).symm)] at hsk2
      rw [hrs]
      simp only [Except.ok_bind']
      rw [hsk2]
      simp only [Except.ok_bind', hid]
      refine ⟨_, ?_, .evaluate (out := List.zipWith (fun p y => isOn (levelKind bits param.1) alpha p - y.1) param.2 ps)
        (out' := List.zipWith (fun p y => isOn (levelKind bits param.1) alpha' p - y.1) param.2 ps) ?_⟩
      · have e : s'.V.tri (1 - b) param.1 (levelKind bits param.1) + sketchOf
            (List.zipWith (fun p y => isOn (levelKind bits param.1) alpha' p - y.1) param.2 ps)
            (List.zipWith (fun p y => isOn (levelKind bits param.1) alpha' p * s'.V.k param.1 (levelKind bits param.1) - y.2) param.2 ps) rs =
            s.V.tri (1 - b) param.1 (levelKind bits param.1) + sketchOf
            (List.zipWith (fun p y => isOn (levelKind bits param.1) alpha p - y.1) param.2 ps)
            (List.zipWith (fun p y => isOn (levelKind bits param.1) alpha p * s.V.k param.1 (levelKind bits param.1) - y.2) param.2 ps) rs := by
          rw [sketch_split _ hyl hr, sketch_split _ hyl hr, onSum_sq hnd hlen, onSum_sq hnd hlen, ht, hk, hx1, hx2]
          unfold shiftScalars
          refine Prod.ext ?_ (Prod.ext ?_ ?_)
          · show _ + (_ - _) = _ + (_ - _); ring
          · show _ + (_ - _) = _ + (_ - _); ring
          · show _ + (_ - _) = _ + (_ - _); ring
        rw [e]
        rfl
      · refine ⟨ps.map Prod.fst, by rw [List.length_map, hyl], ?_, ?_⟩
        · rw [List.zipWith_map_right]
        · rw [List.zipWith_map_right]

end

/-! ### A move -/

inductive ProgRel (bits : ℕ) (alpha alpha' : List Bool) (param : Poplar1AggParam) : Progress → Progress → Prop where
  | running {st st' : Poplar1VerifyState} (h : StRel bits alpha alpha' param st st') : ProgRel bits alpha alpha' param (.running st) (.running st')
  | done {out out' : List (Fk (levelKind bits param.1))} (h : OutRel alpha alpha' param.2 _ out out') :
    ProgRel bits alpha alpha' param (.done ⟨levelKind bits param.1, out⟩) (.done ⟨levelKind bits param.1, out'⟩)
  | rejected : ProgRel bits alpha alpha' param .rejected .rejected

def MemRel (bits : ℕ) (ms ms' : ℕ → List Bool) (mem mem' : Memory) : Prop :=
  ∀ k ℓ, (mem k ℓ = none ∧ mem' k ℓ = none) ∨ ∃ param pr pr', mem k ℓ = some (param, pr) ∧ mem' k ℓ = some (param, pr') ∧
    param.1 = ℓ ∧ ProgRel bits (ms k) (ms' k) param pr pr'

section
variable {bits fuel : ℕ} {ms ms' : ℕ → List Bool} {mem mem' : Memory}

theorem MemRel.set (h : MemRel bits ms ms' mem mem') {k ℓ : ℕ} {param : Poplar1AggParam} (hp : param.1 = ℓ) {pr pr' : Progress}
    (hpr : ProgRel bits (ms k) (ms' k) param pr pr') : MemRel bits ms ms' (mem.set k ℓ (param, pr)) (mem'.set k ℓ (param, pr')) := by
  intro k2 ℓ2
  unfold Memory.set
  by_cases hh : k2 = k ∧ ℓ2 = ℓ
  · rw [if_pos hh, if_pos hh]
    obtain ⟨rfl, rfl⟩ := hh
    exact .inr ⟨param, pr, pr', rfl, rfl, hp, hpr⟩
  · rw [if_neg hh, if_neg hh]
    exact h k2 ℓ2

theorem MemRel.out (h : MemRel bits ms ms' mem mem') (param : Poplar1AggParam) (k : ℕ) :
    (mem.out param k = none ∧ mem'.out param k = none) ∨ ∃ out out' : List (Fk (levelKind bits param.1)),
      mem.out param k = some ⟨_, out⟩ ∧ mem'.out param k = some ⟨_, out'⟩ ∧ OutRel (ms k) (ms' k) param.2 _ out out' := by
  unfold Memory.out
  rcases h k param.1 with ⟨h1, h2⟩ | ⟨param', pr, pr', h1, h2, -, h4⟩
  · rw [h1, h2]; exact .inl ⟨rfl, rfl⟩
  · rw [h1, h2]
    cases h4 with
    | running _ => exact .inl ⟨rfl, rfl⟩
    | rejected => exact .inl ⟨rfl, rfl⟩
    | done ho =>
      dsimp only
      by_cases hp : param' = param
      · subst hp
        rw [if_pos rfl, if_pos rfl]
        exact .inr ⟨_, _, rfl, rfl, ho⟩
      · rw [if_neg hp, if_neg hp]
        exact .inl ⟨rfl, rfl⟩

theorem verifyNext_alike {alpha alpha' : List Bool} {param : Poplar1AggParam} {st st' : Poplar1VerifyState} (ctx : Bytes)
    (h : StRel bits alpha alpha' param st st') (msg : Option FieldVec) :
    (∃ e e', Poplar1.verifyNext ctx st msg = .error e ∧ Poplar1.verifyNext ctx st' msg = .error e') ∨
    (∃ st2 st2' share, Poplar1.verifyNext ctx st msg = .ok (.cont st2 share) ∧ Poplar1.verifyNext ctx st' msg = .ok (.cont st2' share) ∧
      StRel bits alpha alpha' param st2 st2') ∨
    ∃ out out' : List (Fk (levelKind bits param.1)), Poplar1.verifyNext ctx st msg = .ok (.out ⟨_, out⟩) ∧
      Poplar1.verifyNext ctx st' msg = .ok (.out ⟨_, out'⟩) ∧ OutRel alpha alpha' param.2 _ out out' := by
  cases h with
  | evaluate h =>
    match msg with
    | none => exact .inl ⟨_, _, rfl, rfl⟩
    | some ⟨κ, l⟩ =>
      match l with
      | [p0, p1, p2] => exact .inr (.inl ⟨_, _, _, rfl, rfl, .reveal h⟩)
      | [] | [_] | [_, _] | _ :: _ :: _ :: _ :: _ => exact .inl ⟨_, _, rfl, rfl⟩
  | reveal h =>
    match msg with
    | none => exact .inr (.inr ⟨_, _, rfl, rfl, h⟩)
    | some _ => exact .inl ⟨_, _, rfl, rfl⟩

theorem OutRel.coef {alpha alpha' : List Bool} {prefixes : List (List Bool)} {κ : Kind} {out out' : List (Fk κ)}
    (h : OutRel alpha alpha' prefixes κ out out') {j : ℕ} (hj : j < prefixes.length) :
    coef (F := Fk κ) out j + isOn κ alpha' prefixes[j] = coef (F := Fk κ) out' j + isOn κ alpha prefixes[j] := by
  obtain ⟨ys, hl, rfl, rfl⟩ := h
  rw [coef_of_lt (by simp; omega), coef_of_lt (by simp; omega), List.getElem_zipWith, List.getElem_zipWith]
  ring

theorem OutRel.length {alpha alpha' : List Bool} {prefixes : List (List Bool)} {κ : Kind} {out out' : List (Fk κ)}
    (h : OutRel alpha alpha' prefixes κ out out') : out.length = prefixes.length ∧ out'.length = prefixes.length := by
  obtain ⟨ys, hl, rfl, rfl⟩ := h
  simp [hl]

theorem MemRel.aggregate (P : Prims) (h : MemRel bits ms ms' mem mem') {param : Poplar1AggParam} {ids : List ℕ}
    (hi : ∀ k ∈ ids, (mem.out param k).isSome)
    (hc : ∀ p ∈ param.2, ids.countP (fun k => p <+: ms k) = ids.countP (fun k => p <+: ms' k)) :
    Spec.aggregate ((⟨poplarIdpf bits⟩ : Poplar1).vdaf P fuel) param (ids.filterMap (mem.out param)) =
      Spec.aggregate ((⟨poplarIdpf bits⟩ : Poplar1).vdaf P fuel) param (ids.filterMap (mem'.out param)) := by
  have key : ∀ l : List ℕ, (∀ k ∈ l, (mem.out param k).isSome) →
      (∀ v ∈ l.filterMap (mem.out param), v.2.length = param.2.length) ∧ (∀ v ∈ l.filterMap (mem'.out param), v.2.length = param.2.length) ∧
      ∀ (j : ℕ) (hj : j < param.2.length),
        colsum (F := Fk (levelKind bits param.1)) ((l.filterMap (mem.out param)).map (castVec _)) j + (l.countP (fun k => param.2[j] <+: ms' k) : ℕ) =
        colsum (F := Fk (levelKind bits param.1)) ((l.filterMap (mem'.out param)).map (castVec _)) j + (l.countP (fun k => param.2[j] <+: ms k) : ℕ) := by
    intro l
    induction l with
    | nil => intro _; simp [colsum]
    | cons k l ih =>
      intro hl
      obtain ⟨i1, i2, i3⟩ := ih fun k hk => hl k (List.mem_cons_of_mem _ hk)
      rcases h.out param k with ⟨h1, -⟩ | ⟨out, out', h1, h2, h3⟩
      · have := hl k List.mem_cons_self
        rw [h1] at this
        cases this
      · rw [List.filterMap_cons_some h1, List.filterMap_cons_some h2]
        refine ⟨?_, ?_, ?_⟩
        · intro v hv
          rcases List.mem_cons.1 hv with rfl | hv
          · exact h3.length.1
          · exact i1 v hv
        · intro v hv
          rcases List.mem_cons.1 hv with rfl | hv
          · exact h3.length.2
          · exact i2 v hv
        · intro j hj
          have e1 := i3 j hj
          have e2 := h3.coef hj
          rw [List.map_cons, List.map_cons, castVec_self, castVec_self, List.countP_cons, List.countP_cons]
          have c : ∀ a : List Bool, (((if decide (param.2[j] <+: a) = true then 1 else 0 : ℕ)) : Fk (levelKind bits param.1)) =
              isOn (levelKind bits param.1) a param.2[j] := by
            intro a
            unfold isOn
            by_cases hh : param.2[j] <+: a <;> simp [hh]
          rw [Nat.cast_add, Nat.cast_add, c, c]
          unfold colsum at e1 ⊢
          rw [List.map_cons, List.map_cons, List.sum_cons, List.sum_cons]
          linear_combination e1 + e2
  obtain ⟨k1, k2, k3⟩ := key ids hi
  rw [Poplar1.aggregate_eq_merge, Poplar1.aggregate_eq_merge, Poplar1.merge_eq, Poplar1.merge_eq, if_pos k1, if_pos k2]
  congr 2
  apply List.ext_getElem
  · rw [tab_length, tab_length]
  · intro j h1 h2
    rw [tab_length] at h1
    rw [tab_getElem, tab_getElem]
    have := k3 j h1
    rw [hc _ (List.getElem_mem h1)] at this
    exact add_right_cancel this

variable {prims : Prims} {ctx : Bytes} {n : ℕ} {start start' : ℕ → Poplar1AggParam → Res (Poplar1VerifyState × FieldVec)}

theorem respond_alike (h : MemRel bits ms ms' mem mem') {m : TreeMove} {reply : TreeReply} {mem2 : Memory}
    (hs : ∀ k < n, ∀ param, Askable bits param → mem k param.1 = none → ∀ st share, reply = .started k param share →
      start k param = .ok (st, share) → ∃ st', start' k param = .ok (st', share) ∧ StRel bits (ms k) (ms' k) param st st')
    (hc : ∀ param ids a, reply = .total param ids a → ∀ p ∈ param.2, ids.countP (fun k => p <+: ms k) = ids.countP (fun k => p <+: ms' k))
    (hr : treeRespond prims fuel bits ctx n start mem m = .ok (reply, mem2)) :
    ∃ mem2', treeRespond prims fuel bits ctx n start' mem' m = .ok (reply, mem2') ∧ MemRel bits ms ms' mem2 mem2' := by
  cases m with
  | turboShake x => cases hr; exact ⟨_, rfl, h⟩
  | cipher x y => cases hr; exact ⟨_, rfl, h⟩
  | start k param =>
    unfold treeRespond at hr ⊢
    dsimp only at hr ⊢
    have hn : mem' k param.1 = none ↔ mem k param.1 = none := by
      rcases h k param.1 with ⟨h1, h2⟩ | ⟨_, _, _, h1, h2, -⟩
      · rw [h1, h2]
      · rw [h1, h2]; simp
    by_cases hh : k < n ∧ Askable bits param ∧ mem k param.1 = none
    · rw [if_pos hh] at hr
      rw [if_pos ⟨hh.1, hh.2.1, hn.2 hh.2.2⟩]
      obtain ⟨⟨st, share⟩, h1, h2⟩ := Except.bind_eq_ok.1 hr
      cases h2
      obtain ⟨st', h3, h4⟩ := hs k hh.1 param hh.2.1 hh.2.2 st share rfl h1
      rw [h3]
      exact ⟨_, rfl, h.set rfl (.running h4)⟩
    · rw [if_neg hh] at hr
      rw [if_neg fun h' => hh ⟨h'.1, h'.2.1, hn.1 h'.2.2⟩]
      cases hr
      exact ⟨_, rfl, h⟩
  | send k level message =>
    unfold treeRespond at hr ⊢
    dsimp only at hr ⊢
    rcases h k level with ⟨h1, h2⟩ | ⟨param, pr, pr', h1, h2, h3, h4⟩
    · rw [h1] at hr; rw [h2]
      cases hr
      exact ⟨_, rfl, h⟩
    · rw [h1] at hr; rw [h2]
      cases h4 with
      | done _ => cases hr; exact ⟨_, rfl, h⟩
      | rejected => cases hr; exact ⟨_, rfl, h⟩
      | running hst =>
        dsimp only at hr ⊢
        rcases verifyNext_alike ctx hst message with ⟨e, e', v1, v2⟩ | ⟨st2, st2', share, v1, v2, v3⟩ | ⟨out, out', v1, v2, v3⟩
        · rw [v1] at hr; rw [v2]
          cases hr
          exact ⟨_, rfl, h.set h3 .rejected⟩
        · rw [v1] at hr; rw [v2]
          cases hr
          exact ⟨_, rfl, h.set h3 (.running v3)⟩
        · rw [v1] at hr; rw [v2]
          cases hr
          exact ⟨_, rfl, h.set h3 (.done v3)⟩
  | collect param ks =>
    unfold treeRespond at hr ⊢
    dsimp only at hr ⊢
    have hids : ((List.range n).filter fun k => decide (k ∈ ks ∧ (mem'.out param k).isSome)) =
        (List.range n).filter fun k => decide (k ∈ ks ∧ (mem.out param k).isSome) := by
      apply List.filter_congr
      intro k _
      rcases h.out param k with ⟨h1, h2⟩ | ⟨out, out', h1, h2, h3⟩
      · rw [h1, h2]
      · rw [h1, h2]; rfl
    rw [hids]
    obtain ⟨a, h1, h2⟩ := Except.bind_eq_ok.1 hr
    cases h2
    rw [← h.aggregate prims (fuel := fuel) (by
      intro k hk
      have := (List.mem_filter.1 hk).2
      simp only [decide_eq_true_eq] at this
      exact this.2) (hc _ _ _ rfl), h1]
    exact ⟨_, rfl, h⟩

/-! ### All moves -/

def askedAt (k ℓ : ℕ) : TreeReply → Option (List (List Bool))
  | .started k' param _ => if k' = k ∧ param.1 = ℓ then some param.2 else none
  | _ => none

/-- The prefixes for which the verification of report `k` has begun at level `ℓ` -/
def asked (L : List TreeReply) (k ℓ : ℕ) : Option (List (List Bool)) := L.findSome? (askedAt k ℓ)

theorem respond_asked {m : TreeMove} {reply : TreeReply} {mem2 : Memory}
    (hr : treeRespond prims fuel bits ctx n start mem m = .ok (reply, mem2)) (k ℓ : ℕ) :
    (mem2 k ℓ).map (fun x => x.1.2) = ((mem k ℓ).map fun x => x.1.2).or (askedAt k ℓ reply) := by
  have same : ∀ (reply : TreeReply), askedAt k ℓ reply = none → (mem k ℓ).map (fun x => x.1.2) = ((mem k ℓ).map fun x => x.1.2).or (askedAt k ℓ reply) := by
    intro reply h
    rw [h, Option.or_none]
  cases m with
  | turboShake x => cases hr; exact same _ rfl
  | cipher x y => cases hr; exact same _ rfl
  | start k' param =>
    unfold treeRespond at hr
    dsimp only at hr
    by_cases hh : k' < n ∧ Askable bits param ∧ mem k' param.1 = none
    · rw [if_pos hh] at hr
      obtain ⟨⟨st, share⟩, h1, h2⟩ := Except.bind_eq_ok.1 hr
      cases h2
      unfold Memory.set askedAt
      dsimp only
      by_cases hk : k = k' ∧ ℓ = param.1
      · rw [if_pos hk, if_pos ⟨hk.1.symm, hk.2.symm⟩, hk.1, hk.2, hh.2.2]
        rfl
      · rw [if_neg hk, if_neg fun h' => hk ⟨h'.1.symm, h'.2.symm⟩, Option.or_none]
    · rw [if_neg hh] at hr
      cases hr
      exact same _ rfl
  | send k' level message =>
    unfold treeRespond at hr
    dsimp only at hr
    have upd : ∀ {param : Poplar1AggParam} {pr pr' : Progress} (reply : TreeReply), askedAt k ℓ reply = none → mem k' level = some (param, pr) →
        (mem.set k' level (param, pr') k ℓ).map (fun x => x.1.2) = ((mem k ℓ).map fun x => x.1.2).or (askedAt k ℓ reply) := by
      intro param pr pr' reply h1 h2
      rw [h1, Option.or_none]
      unfold Memory.set
      by_cases hk : k = k' ∧ ℓ = level
      · rw [if_pos hk, hk.1, hk.2, h2]; rfl
      · rw [if_neg hk]
    match hm : mem k' level with
    | none => rw [hm] at hr; cases hr; exact same _ rfl
    | some (param, .done _) => rw [hm] at hr; cases hr; exact same _ rfl
    | some (param, .rejected) => rw [hm] at hr; cases hr; exact same _ rfl
    | some (param, .running st) =>
      rw [hm] at hr
      dsimp only at hr
      match hv : Poplar1.verifyNext ctx st message with
      | .ok (.cont st2 share) => rw [hv] at hr; cases hr; exact upd _ rfl hm
      | .ok (.out out) => rw [hv] at hr; cases hr; exact upd _ rfl hm
      | .error _ => rw [hv] at hr; cases hr; exact upd _ rfl hm
  | collect param ks =>
    unfold treeRespond at hr
    obtain ⟨a, h1, h2⟩ := Except.bind_eq_ok.1 hr
    cases h2
    exact same _ rfl

theorem play_asked {σ : List TreeReply → TreeMove} {t : ℕ} {replies : List TreeReply} {mem : Memory}
    (h : treePlay prims fuel bits ctx n start σ t = .ok (replies, mem)) (k ℓ : ℕ) :
    asked replies k ℓ = (mem k ℓ).map fun x => x.1.2 := by
  induction t generalizing replies mem with
  | zero => cases h; rfl
  | succ t ih =>
    unfold treePlay at h
    obtain ⟨⟨r1, m1⟩, h1, h⟩ := Except.bind_eq_ok.1 h
    dsimp only at h
    obtain ⟨⟨r2, m2⟩, h2, h⟩ := Except.bind_eq_ok.1 h
    cases h
    rw [respond_asked h2, ← ih h1]
    unfold asked
    rw [List.findSome?_append]
    cases hx : askedAt k ℓ r2 <;> simp [hx]

theorem play_alike {σ : List TreeReply → TreeMove} {L : List TreeReply}
    (hs : ∀ k < n, ∀ param, Askable bits param → asked L k param.1 = some param.2 → ∀ st share,
      start k param = .ok (st, share) → ∃ st', start' k param = .ok (st', share) ∧ StRel bits (ms k) (ms' k) param st st')
    (hc : ∀ param ids a, .total param ids a ∈ L → ∀ p ∈ param.2, ids.countP (fun k => p <+: ms k) = ids.countP (fun k => p <+: ms' k))
    {t : ℕ} {replies : List TreeReply} {mem : Memory}
    (h : treePlay prims fuel bits ctx n start σ t = .ok (replies, mem)) (hL : replies <+: L) :
    ∃ mem', treePlay prims fuel bits ctx n start' σ t = .ok (replies, mem') ∧ MemRel bits ms ms' mem mem' := by
  induction t generalizing replies mem with
  | zero => cases h; exact ⟨_, rfl, fun _ _ => .inl ⟨rfl, rfl⟩⟩
  | succ t ih =>
    unfold treePlay at h ⊢
    obtain ⟨⟨r1, m1⟩, h1, h⟩ := Except.bind_eq_ok.1 h
    dsimp only at h
    obtain ⟨⟨r2, m2⟩, h2, h⟩ := Except.bind_eq_ok.1 h
    cases h
    obtain ⟨m1', h3, h4⟩ := ih h1 ((List.prefix_append _ _).trans hL)
    obtain ⟨rest, hrest⟩ := hL
    obtain ⟨m2', h5, h6⟩ := respond_alike (start' := start') h4 (by
      intro k hk param hp hm st share hr
      subst hr
      refine hs k hk param hp ?_ st share
      rw [← hrest]
      unfold asked
      have := play_asked h1 k param.1
      rw [hm] at this
      rw [List.findSome?_append, List.findSome?_append, show List.findSome? (askedAt k param.1) r1 = none from this]
      simp [askedAt]) (by
      intro param ids a hr
      refine hc param ids a ?_
      rw [← hrest, hr]
      simp) h2
    rw [h3]
    simp only [Except.ok_bind']
    rw [h5]
    exact ⟨_, rfl, h6⟩

end
end Vdaf.PO
