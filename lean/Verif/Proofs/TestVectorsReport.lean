import Verif.Proofs.TestVectors

/-! The checker on the operations of one report. -/

namespace Vdaf.TestVectors

theorem exists_list {α : Type} {n : ℕ} {P : ℕ → α → Prop} (h : ∀ j < n, ∃ x, P j x) :
    ∃ l : List α, l.length = n ∧ ∀ j (h : j < l.length), P j l[j] := by
  induction n with
  | zero => exact ⟨[], rfl, by simp⟩
  | succ n ih =>
    obtain ⟨l, h1, h2⟩ := ih fun j hj => h j (by omega)
    obtain ⟨x, hx⟩ := h n (by omega)
    refine ⟨l ++ [x], by simp [h1], fun j hj => ?_⟩
    by_cases hj' : j < l.length
    · rw [List.getElem_append_left hj']
      exact h2 j hj'
    · have : j = n := by
        simp at hj
        omega
      subst this
      rw [List.getElem_append_right (by omega)]
      simpa [h1] using hx

theorem forFold_map {α β γ : Type} (g : α → β) (l : List α) (b : γ) (f : γ → β → Res γ) :
    forFold (l.map g) b f = forFold l b fun b x => f b (g x) := by
  induction l generalizing b with
  | nil => rfl
  | cons x l ih =>
    rw [List.map_cons, forFold_cons, forFold_cons]
    cases f b (g x) with
    | error e => rfl
    | ok b' => exact ih b'

section
variable {Meas AggParam PubShare InShare OutShare AggShare AggRes VState VShare VMsg : Type} [DecidableEq AggRes]
variable {V : VdafImpl Meas AggParam PubShare InShare OutShare AggShare AggRes VState VShare VMsg}
variable {C : ShareCodec AggParam OutShare AggShare}
variable {tv : TestVec Meas AggRes} {key ctx apb : Bytes} {a : AggParam} {Rs : List (Meas × Bytes × Bytes)}

/-- What the generator knows after round `k`. -/
structure GInv (V : VdafImpl Meas AggParam PubShare InShare OutShare AggShare AggRes VState VShare VMsg)
    (key ctx : Bytes) (a : AggParam) (nonce : Bytes) (pub : PubShare) (ins : List InShare) (k : ℕ)
    (s : GenState VState VShare) : Prop where
  states : s.states.length = V.shares
  shares : s.shares.length = V.shares
  messages : s.messages.length = k
  rows : s.rows.length = k + 1
  held : ∀ j (h : j < s.states.length) (h' : j < s.shares.length), ∃ x, ins[j]? = some x ∧
    Spec.Held V key ctx a nonce pub j x k s.states[j] s.shares[j]
  row : ∃ row, s.rows[k]? = some row ∧ row.length = V.shares ∧ ∀ j (h : j < s.shares.length) (h' : j < row.length),
    ∃ b, V.encodeVerifierShare s.shares[j] = .ok b ∧ row[j] = hex b

/-- What the report lists of it -/
structure GList (rep : Report Meas) (s : GenState VState VShare) : Prop where
  rows : ∀ (k : ℕ) row, s.rows[k]? = some row → ∃ row', rep.verifierShares[k]? = some row' ∧ Spec.Listed row row'
  messages : Spec.Listed s.messages rep.verifierMessages

/-- The operations of round `k` -/
def roundOps (n r k : ℕ) : List Operation :=
  .sharesToMessage k r true :: (List.range n).map fun j => .verifyNext (k + 1) j r true

theorem listed_snoc {l l' : List Hex} {b : Bytes} :
    Spec.Listed (l ++ [hex b]) l' ↔ Spec.Listed l l' ∧ ∃ h, l'[l.length]? = some h ∧ fromHex h = .ok b := by
  constructor
  · intro h
    refine ⟨fun i h' hi => h i h' ?_, ?_⟩
    · rw [List.getElem?_append_left (List.getElem?_eq_some_iff.1 hi).1]
      exact hi
    · obtain ⟨x, hx, h1⟩ := h l.length (hex b) (by simp)
      exact ⟨x, hx, same_hex.1 h1⟩
  · rintro ⟨h1, x, hx, h2⟩ i h' hi
    rcases lt_trichotomy i l.length with h | h | h
    · rw [List.getElem?_append_left h] at hi
      exact h1 i h' hi
    · subst h
      simp at hi
      subst hi
      exact ⟨x, hx, same_hex.2 h2⟩
    · rw [List.getElem?_eq_none (by simp; omega)] at hi
      cases hi

theorem listed_iff {row row' : List Hex} :
    Spec.Listed row row' ↔ ∀ j (h : j < row.length), ∃ x, row'[j]? = some x ∧ Spec.SameBytes row[j] x := by
  constructor
  · intro h j hj
    exact h j _ (by simp)
  · intro h j x hx
    obtain ⟨hj, rfl⟩ := List.getElem?_eq_some_iff.1 hx
    exact h j hj

section
variable {rep : Report Meas} {r : ℕ} {nonce rand : Bytes} {S S' : States VState} {pub : PubShare} {ins : List InShare}

omit [DecidableEq AggRes] in
/-- The round of the generator, spelled out -/
theorem genRound_iff {s s' : GenState VState VShare} {k : ℕ} (hs : s.states.length = V.shares) :
    genRound V ctx a r s k = .ok s' ↔ ∃ msg m, V.sharesToMessage ctx a s.shares = .ok msg ∧
      V.encodeVerifierMessage msg = .ok m ∧ ∃ outs : List (VState × VShare × Bytes), outs.length = V.shares ∧
      (∀ j (h : j < outs.length) (h' : j < s.states.length), V.verifyNext ctx s.states[j] msg = .ok (.cont outs[j].1 outs[j].2.1) ∧
        V.encodeVerifierShare outs[j].2.1 = .ok outs[j].2.2) ∧
      s' = { states := outs.map (·.1), shares := outs.map (·.2.1), rows := s.rows ++ [outs.map fun o => hex o.2.2]
             messages := s.messages ++ [hex m], ops := s.ops ++ roundOps V.shares r k } := by
  unfold genRound VdafImpl.verifyNextTuple
  simp only [Except.bind_eq_ok, Except.pure_eq', Except.ok.injEq]
  constructor
  · rintro ⟨msg, h1, m, h2, outs, h3, rfl⟩
    rw [mapRes_range_iff] at h3
    obtain ⟨h3, h4⟩ := h3
    obtain ⟨l, h5, h6⟩ := exists_list (n := V.shares) (P := fun j (x : VState × VShare × Bytes) => ∀ h' : j < s.states.length,
      (V.verifyNext ctx s.states[j] msg = .ok (.cont x.1 x.2.1) ∧
        V.encodeVerifierShare x.2.1 = .ok x.2.2) ∧ outs[j]? = some (x.1, x.2.1, hex x.2.2)) (by
      intro j hj
      obtain ⟨b, h5, h6⟩ := h4 j hj
      rw [getI_of_lt (by omega)] at h5
      simp only [Except.bind_eq_ok, Except.ok.injEq, exists_eq_left', Prod.exists] at h5
      obtain ⟨st, sh, ⟨out, h7, h8⟩, b', h9, rfl⟩ := h5
      refine ⟨(st, sh, b'), fun _ => ⟨⟨?_, h9⟩, h6⟩⟩
      cases out with
      | out o => cases h8
      | cont st4 sh4 =>
        cases h8
        exact h7)
    have : outs = l.map fun x => (x.1, x.2.1, hex x.2.2) := by
      apply List.ext_getElem (by simp; omega)
      intro j hj hj'
      have := (h6 j (by omega) (by omega)).2
      rw [List.getElem?_eq_getElem hj] at this
      simpa using this
    subst this
    refine ⟨msg, m, h1, h2, l, h5, fun j h h' => (h6 j h h').1, ?_⟩
    simp [roundOps]
  · rintro ⟨msg, m, h1, h2, outs, h3, h4, rfl⟩
    refine ⟨msg, h1, m, h2, outs.map (fun x => (x.1, x.2.1, hex x.2.2)), ?_, ?_⟩
    · rw [mapRes_range_iff]
      refine ⟨by simpa using h3, fun j hj => ⟨_, ?_, by simp [h3, hj]; rfl⟩⟩
      obtain ⟨h5, h6⟩ := h4 j (by omega) (by omega)
      rw [getI_of_lt (by omega)]
      simp only [Except.ok_bind', h5, h6]
    · simp [roundOps]

omit [DecidableEq AggRes] in
theorem ginv_round {s s' : GenState VState VShare} {k : ℕ} (hs : GInv V key ctx a nonce pub ins k s)
    (h : genRound V ctx a r s k = .ok s') : GInv V key ctx a nonce pub ins (k + 1) s' := by
  obtain ⟨msg, m, h1, h2, outs, h3, h4, rfl⟩ := (genRound_iff hs.states).1 h
  have hst := hs.states
  have hsh := hs.shares
  refine ⟨by simpa using h3, by simpa using h3, by simp [hs.messages], by simp [hs.rows], fun j hj hj' => ?_, ?_⟩
  · simp only [List.length_map] at hj hj'
    obtain ⟨x, hx, hh⟩ := hs.held j (by omega) (by omega)
    refine ⟨x, hx, ?_⟩
    simp only [List.getElem_map]
    exact .next hh (h4 j hj (by omega)).1
  · refine ⟨outs.map fun o => hex o.2.2, ?_, by simpa using h3, fun j hj hj' => ?_⟩
    · rw [List.getElem?_append_right (by simp [hs.rows])]
      simp [hs.rows]
    · simp only [List.length_map] at hj hj'
      simp only [List.getElem_map]
      exact ⟨_, (h4 j hj (by omega)).2, rfl⟩

omit [DecidableEq AggRes] in
/-- The verifier shares that the report lists for round `k` decode to those of the generator. -/
theorem row_decodes (hRT : Spec.RoundTrips V C key a ctx Rs) {s : GenState VState VShare} {k : ℕ}
    (hs : GInv V key ctx a nonce pub ins k s) (hl : GList rep s) :
    ∃ row, rep.verifierShares[k]? = some row ∧ ∀ j (h : j < s.states.length) (h' : j < s.shares.length),
      ∃ x b, row[j]? = some x ∧ fromHex x = .ok b ∧ V.decodeVerifierShare s.states[j] b = .ok s.shares[j] := by
  obtain ⟨row, h1, h2, h3⟩ := hs.row
  obtain ⟨row', h4, h5⟩ := hl.rows k row h1
  have hst := hs.states
  have hsh := hs.shares
  refine ⟨row', h4, fun j h h' => ?_⟩
  obtain ⟨b, h6, h7⟩ := h3 j h' (by omega)
  obtain ⟨x, h8, h9⟩ := h5 j row[j] (by simp)
  rw [h7, same_hex] at h9
  obtain ⟨y, hy, hh⟩ := hs.held j h h'
  exact ⟨x, b, h8, h9, hRT.verifierShare _ _ _ _ _ _ _ _ (by omega) hh h6⟩

theorem round_iff (hRT : Spec.RoundTrips V C key a ctx Rs) (hctx : fromHex tv.ctx = .ok ctx)
    (hap : fromHex tv.aggParam = .ok apb) (ha : V.decodeAggParam apb = .ok a) (hrep : tv.reports[r]? = some rep)
    {s : GenState VState VShare} {k : ℕ} (h0 : 0 < V.shares) (hk : k + 1 < V.rounds)
    (hs : GInv V key ctx a nonce pub ins k s) (hl : GList rep s) (hS : ∀ j < V.shares, S r j k = s.states[j]?) :
    forFold (roundOps V.shares r k) S (fun S op => checkOperation V C tv S op) = .ok S' ↔
      (∀ row, rep.verifierShares[k]? = some row → ∃ bs, mapRes fromHex row = .ok bs) ∧
      ∃ s', genRound V ctx a r s k = .ok s' ∧ GList rep s' ∧ S' = putAll S r (k + 1) s'.states := by
  have hst := hs.states
  have hsh := hs.shares
  obtain ⟨row, hrow, hdec⟩ := row_decodes hRT hs hl
  have hrows : (∀ row, rep.verifierShares[k]? = some row → ∃ bs, mapRes fromHex row = .ok bs) ↔
      ∃ bs, mapRes fromHex row = .ok bs := by
    constructor
    · exact fun h => h row hrow
    · intro h row' hrow'
      rw [hrow] at hrow'
      cases hrow'
      exact h
  rw [hrows]
  unfold roundOps
  rw [forFold_cons, Except.bind_eq_ok]
  have hmsg : ∀ msg b, V.sharesToMessage ctx a s.shares = .ok msg → V.encodeVerifierMessage msg = .ok b →
      ∀ j (h : j < s.states.length), V.decodeVerifierMessage s.states[j] b = .ok msg := by
    intro msg b h1 h2 j h
    exact hRT.verifierMessage nonce pub ins k s.states s.shares msg b hst hsh hs.held h1 h2 _ (List.getElem_mem h)
  have hnext : ∀ msg b x, V.sharesToMessage ctx a s.shares = .ok msg → V.encodeVerifierMessage msg = .ok b →
      rep.verifierMessages[k]? = some x → fromHex x = .ok b → ∀ S',
      (forFold ((List.range V.shares).map fun j => Operation.verifyNext (k + 1) j r true) S
        (fun S op => checkOperation V C tv S op) = .ok S' ↔ ∃ sts : List VState, sts.length = V.shares ∧
        (∀ j (h : j < sts.length), ∃ st, S r j k = some st ∧ ∃ sh row h, V.verifyNext ctx st msg = .ok (.cont sts[j] sh) ∧
          rep.verifierShares[k + 1]? = some row ∧ row[j]? = some h ∧ Enc (V.encodeVerifierShare sh) h) ∧
        S' = putAll S r (k + 1) sts) := by
    intro msg b x h1 h2 h3 h4 S'
    rw [forFold_map]
    refine fold_put (Φ := fun j o st' => ∃ st, o = some st ∧ ∃ sh row h, V.verifyNext ctx st msg = .ok (.cont st' sh) ∧
          rep.verifierShares[k + 1]? = some row ∧ row[j]? = some h ∧ Enc (V.encodeVerifierShare sh) h)
      (k := k) (k' := k + 1) (r := r) (N := V.shares) (by omega) ?_ V.shares le_rfl S'
    intro S1 S2 j hj hS1
    have hSj : S1 r j k = some s.states[j] := by
      rw [hS1, hS j hj]
      simp
    rw [op_next hctx hrep hk hj hSj ⟨x, b, h3, h4, hmsg msg b h1 h2 j (by omega)⟩, ← hS1 j, hSj]
    simp
  constructor
  · rintro ⟨S1, h1, h2⟩
    obtain ⟨rfl, hbs, msg, x, h3, h4, mb, h5, h6⟩ := (op_message hctx hap ha hrep hst hS hrow hsh hdec).1 h1
    obtain ⟨sts, h7, h8, rfl⟩ := (hnext msg mb x h3 h5 h4 h6 S').1 h2
    refine ⟨hbs, ?_⟩
    obtain ⟨outs, h9, h10⟩ := exists_list (n := V.shares) (P := fun j (o : VState × VShare × Bytes) =>
      (∀ h' : j < s.states.length, V.verifyNext ctx s.states[j] msg = .ok (.cont o.1 o.2.1)) ∧
        V.encodeVerifierShare o.2.1 = .ok o.2.2 ∧ sts[j]? = some o.1 ∧ ∃ row h, rep.verifierShares[k + 1]? = some row ∧
          row[j]? = some h ∧ fromHex h = .ok o.2.2) (by
      intro j hj
      obtain ⟨st, g1, sh, row, h, g2, g3, g4, b, g5, g6⟩ := h8 j (by omega)
      rw [hS j hj, List.getElem?_eq_getElem (by omega)] at g1
      cases g1
      exact ⟨(sts[j], sh, b), fun _ => g2, g5, by simp, row, h, g3, g4, g6⟩)
    have hsts : sts = outs.map (·.1) := by
      apply List.ext_getElem (by simp; omega)
      intro j hj hj'
      have := (h10 j (by omega)).2.2.1
      rw [List.getElem?_eq_getElem hj] at this
      simpa using this
    refine ⟨_, (genRound_iff hst).2 ⟨msg, mb, h3, h5, outs, h9, fun j h h' => ⟨(h10 j h).1 h', (h10 j h).2.1⟩, rfl⟩,
      ⟨?_, ?_⟩, by rw [hsts]⟩
    · intro i row hi
      rcases lt_trichotomy i s.rows.length with h | h | h
      · rw [List.getElem?_append_left h] at hi
        exact hl.rows i row hi
      · subst h
        simp at hi
        subst hi
        rw [hs.rows]
        obtain ⟨-, -, -, row', x', g1, -⟩ := h10 0 (by omega)
        refine ⟨row', g1, listed_iff.2 fun j hj => ?_⟩
        simp only [List.length_map] at hj
        obtain ⟨-, -, -, row'', x'', g2, g3, g4⟩ := h10 j (by omega)
        rw [g1] at g2
        cases g2
        simp only [List.getElem_map]
        exact ⟨x'', g3, same_hex.2 g4⟩
      · rw [List.getElem?_eq_none (by simp; omega)] at hi
        cases hi
    · rw [listed_snoc, hs.messages]
      exact ⟨hl.messages, x, h4, h6⟩
  · rintro ⟨hbs, s', h1, h2, rfl⟩
    obtain ⟨msg, mb, h3, h5, outs, h9, h10, rfl⟩ := (genRound_iff hst).1 h1
    obtain ⟨-, x, h4, h6⟩ := listed_snoc.1 h2.messages
    rw [hs.messages] at h4
    refine ⟨S, (op_message hctx hap ha hrep hst hS hrow hsh hdec).2 ⟨rfl, hbs, msg, x, h3, h4, mb, h5, h6⟩,
      (hnext msg mb x h3 h5 h4 h6 _).2 ⟨_, by simpa using h9, fun j hj => ?_, rfl⟩⟩
    simp only [List.length_map] at hj
    obtain ⟨row', g1, g2⟩ := h2.rows (k + 1) (outs.map fun o => hex o.2.2) (by
      rw [List.getElem?_append_right (by simp [hs.rows])]
      simp [hs.rows])
    obtain ⟨x', g3, g4⟩ := g2 j (hex outs[j].2.2) (by simp [hj])
    obtain ⟨g5, g6⟩ := h10 j hj (by omega)
    refine ⟨s.states[j], by rw [hS j (by omega)]; simp, outs[j].2.1, row', x', ?_, g1, g3, _, g6, same_hex.1 g4⟩
    simp only [List.getElem_map]
    exact g5

omit [DecidableEq AggRes] in
/-- The initialization of the generator, spelled out -/
theorem genInit_iff (hr : 0 < V.rounds) {s : GenState VState VShare} :
    genInit V key ctx a r nonce pub ins = .ok s ↔ ∃ outs : List (VState × VShare × Bytes), outs.length = V.shares ∧
      (∀ j (h : j < outs.length), ∃ x, ins[j]? = some x ∧
        V.verifyInit key ctx j a nonce pub x = .ok (outs[j].1, outs[j].2.1) ∧
        V.encodeVerifierShare outs[j].2.1 = .ok outs[j].2.2) ∧
      s = { states := outs.map (·.1), shares := outs.map (·.2.1), rows := [outs.map fun o => hex o.2.2], messages := []
            ops := (List.range V.shares).map fun j => .verifyInit j r true } := by
  unfold genInit
  simp only [if_neg hr.ne', Except.bind_eq_ok, Except.pure_eq', Except.ok.injEq]
  constructor
  · rintro ⟨outs, h1, row, h2, rfl⟩
    rw [mapRes_range_iff] at h1
    obtain ⟨h1, h3⟩ := h1
    have hrow : row.length = V.shares := by simpa [h1] using mapRes_length h2
    obtain ⟨l, h5, h6⟩ := exists_list (n := V.shares) (P := fun j (x : VState × VShare × Bytes) =>
      (∃ y, ins[j]? = some y ∧ V.verifyInit key ctx j a nonce pub y = .ok (x.1, x.2.1) ∧
        V.encodeVerifierShare x.2.1 = .ok x.2.2) ∧ outs[j]? = some (x.1, x.2.1) ∧ row[j]? = some (hex x.2.2)) (by
      intro j hj
      obtain ⟨b, g1, g2⟩ := h3 j hj
      simp only [Except.bind_eq_ok, getI_eq_ok] at g1
      obtain ⟨y, g3, g4⟩ := g1
      have g5 := mapRes_getElem h2 j (by simpa [h1] using hj) (by omega)
      obtain ⟨g6, rfl⟩ := List.getElem?_eq_some_iff.1 g2
      simp only [List.getElem_map, Except.bind_eq_ok, Except.ok.injEq] at g5
      obtain ⟨b', g7, g8⟩ := g5
      exact ⟨(outs[j].1, outs[j].2, b'), ⟨y, g3, g4, g7⟩, by simp, by simp [g8, hrow, hj]⟩)
    have e1 : outs = l.map fun x => (x.1, x.2.1) := by
      apply List.ext_getElem (by simp; omega)
      intro j hj hj'
      have := (h6 j (by omega)).2.1
      rw [List.getElem?_eq_getElem hj] at this
      simpa using this
    have e2 : row = l.map fun x => hex x.2.2 := by
      apply List.ext_getElem (by simp; omega)
      intro j hj hj'
      have := (h6 j (by omega)).2.2
      rw [List.getElem?_eq_getElem hj] at this
      simpa using this
    subst e1 e2
    exact ⟨l, h5, fun j h => (h6 j h).1, by simp [Function.comp_def]⟩
  · rintro ⟨outs, h1, h2, rfl⟩
    refine ⟨outs.map (fun x => (x.1, x.2.1)), ?_, outs.map (fun x => hex x.2.2), ?_, by simp [Function.comp_def]⟩
    · rw [mapRes_range_iff]
      refine ⟨by simpa using h1, fun j hj => ⟨_, ?_, by simp [h1, hj]; rfl⟩⟩
      obtain ⟨x, h5, h6, -⟩ := h2 j (by omega)
      rw [getI_of_some h5]
      simp only [Except.ok_bind', h6]
    · rw [mapRes_ok_iff, List.map_map, List.forall₂_map_left_iff, List.forall₂_map_right_iff, List.forall₂_same]
      intro o ho
      obtain ⟨j, hj, rfl⟩ := List.getElem_of_mem ho
      obtain ⟨x, -, -, h6⟩ := h2 j hj
      simp only [Function.comp_apply, h6, Except.ok_bind']

omit [DecidableEq AggRes] in
theorem ginv_init (hr : 0 < V.rounds) {s : GenState VState VShare} (h : genInit V key ctx a r nonce pub ins = .ok s) :
    GInv V key ctx a nonce pub ins 0 s := by
  obtain ⟨outs, h1, h2, rfl⟩ := (genInit_iff hr).1 h
  refine ⟨by simpa using h1, by simpa using h1, rfl, rfl, fun j hj hj' => ?_, ?_⟩
  · simp only [List.length_map] at hj hj'
    obtain ⟨x, hx, h3, -⟩ := h2 j hj
    refine ⟨x, hx, ?_⟩
    simp only [List.getElem_map]
    exact .init h3
  · refine ⟨outs.map fun o => hex o.2.2, rfl, by simpa using h1, fun j hj hj' => ?_⟩
    simp only [List.length_map] at hj hj'
    simp only [List.getElem_map]
    obtain ⟨x, hx, -, h3⟩ := h2 j hj
    exact ⟨_, h3, rfl⟩

theorem init_iff (hctx : fromHex tv.ctx = .ok ctx) (hkey : fromHex tv.verifyKey = .ok key)
    (hap : fromHex tv.aggParam = .ok apb) (ha : V.decodeAggParam apb = .ok a) (hrep : tv.reports[r]? = some rep)
    (hnonce : fromHex rep.nonce = .ok nonce) (h0 : 0 < V.shares) (hr : 0 < V.rounds)
    (hpub : ∃ b, fromHex rep.publicShare = .ok b ∧ V.decodePublicShare b = .ok pub)
    (hins : List.Forall₂ (fun s h => Enc (V.encodeInputShare s) h) ins rep.inputShares)
    (hdec : ∀ j s b, j < V.shares → ins[j]? = some s → V.encodeInputShare s = .ok b → V.decodeInputShare j b = .ok s) :
    forFold ((List.range V.shares).map fun j => Operation.verifyInit j r true) S
        (fun S op => checkOperation V C tv S op) = .ok S' ↔
      ∃ s, genInit V key ctx a r nonce pub ins = .ok s ∧ GList rep s ∧ S' = putAll S r 0 s.states := by
  rw [forFold_map, fold_put (Φ := fun j _ st => ∃ s sh row h, ins[j]? = some s ∧
        V.verifyInit key ctx j a nonce pub s = .ok (st, sh) ∧
        rep.verifierShares[0]? = some row ∧ row[j]? = some h ∧ Enc (V.encodeVerifierShare sh) h)
    (k := 1) (k' := 0) (r := r) (N := V.shares) (by omega)
    (fun S1 S2 j hj _ => op_init hctx hkey hap ha hrep hnonce hpub hins (hdec j · · hj) hj) V.shares le_rfl S']
  constructor
  · rintro ⟨sts, h1, h2, rfl⟩
    obtain ⟨outs, h9, h10⟩ := exists_list (n := V.shares) (P := fun j (o : VState × VShare × Bytes) =>
      (∃ x, ins[j]? = some x ∧ V.verifyInit key ctx j a nonce pub x = .ok (o.1, o.2.1) ∧
        V.encodeVerifierShare o.2.1 = .ok o.2.2) ∧ sts[j]? = some o.1 ∧ ∃ row h, rep.verifierShares[0]? = some row ∧
          row[j]? = some h ∧ fromHex h = .ok o.2.2) (by
      intro j hj
      obtain ⟨x, sh, row, h, g1, g2, g3, g4, b, g5, g6⟩ := h2 j (by omega)
      exact ⟨(sts[j], sh, b), ⟨x, g1, g2, g5⟩, by simp, row, h, g3, g4, g6⟩)
    have hsts : sts = outs.map (·.1) := by
      apply List.ext_getElem (by simp; omega)
      intro j hj hj'
      have := (h10 j (by omega)).2.1
      rw [List.getElem?_eq_getElem hj] at this
      simpa using this
    refine ⟨_, (genInit_iff hr).2 ⟨outs, h9, fun j h => (h10 j h).1, rfl⟩, ⟨?_, ?_⟩, by rw [hsts]⟩
    · intro i row hi
      cases i with
      | succ i => simp at hi
      | zero =>
        simp at hi
        subst hi
        obtain ⟨-, -, row', x', g1, -⟩ := h10 0 (by omega)
        refine ⟨row', g1, listed_iff.2 fun j hj => ?_⟩
        simp only [List.length_map] at hj
        obtain ⟨-, -, row'', x'', g2, g3, g4⟩ := h10 j (by omega)
        rw [g1] at g2
        cases g2
        simp only [List.getElem_map]
        exact ⟨x'', g3, same_hex.2 g4⟩
    · intro i h hi
      simp at hi
  · rintro ⟨s', h1, h2, rfl⟩
    obtain ⟨outs, h9, h10, rfl⟩ := (genInit_iff hr).1 h1
    refine ⟨_, by simpa using h9, fun j hj => ?_, rfl⟩
    simp only [List.length_map] at hj
    obtain ⟨row', g1, g2⟩ := h2.rows 0 _ rfl
    obtain ⟨x', g3, g4⟩ := g2 j (hex outs[j].2.2) (by simp [hj])
    obtain ⟨x, g5, g6, g7⟩ := h10 j hj
    refine ⟨x, outs[j].2.1, row', x', g5, ?_, g1, g3, _, g7, same_hex.1 g4⟩
    simp only [List.getElem_map]
    exact g6

/-- The last round -/
theorem last_iff (hRT : Spec.RoundTrips V C key a ctx Rs) (hctx : fromHex tv.ctx = .ok ctx)
    (hap : fromHex tv.aggParam = .ok apb) (ha : V.decodeAggParam apb = .ok a) (hrep : tv.reports[r]? = some rep)
    {s : GenState VState VShare} {k : ℕ} (hk : k + 1 = V.rounds)
    (hs : GInv V key ctx a nonce pub ins k s) (hl : GList rep s) (hS : ∀ j < V.shares, S r j k = s.states[j]?) :
    forFold (roundOps V.shares r k) S (fun S op => checkOperation V C tv S op) = .ok S' ↔ S' = S ∧
      (∀ row, rep.verifierShares[k]? = some row → ∃ bs, mapRes fromHex row = .ok bs) ∧
      ∃ msg m, V.sharesToMessage ctx a s.shares = .ok msg ∧ V.encodeVerifierMessage msg = .ok m ∧
      Spec.Listed (s.messages ++ [hex m]) rep.verifierMessages ∧
      ∃ outs : List (OutShare × Bytes), outs.length = V.shares ∧
      (∀ j (h : j < outs.length) (h' : j < s.states.length), V.verifyNext ctx s.states[j] msg = .ok (.out outs[j].1) ∧
        C.encodeOutShare outs[j].1 = .ok outs[j].2) ∧ Spec.Listed (outs.map fun o => hex o.2) rep.outShares := by
  have hst := hs.states
  have hsh := hs.shares
  obtain ⟨row, hrow, hdec⟩ := row_decodes hRT hs hl
  have hrows : (∀ row, rep.verifierShares[k]? = some row → ∃ bs, mapRes fromHex row = .ok bs) ↔
      ∃ bs, mapRes fromHex row = .ok bs := by
    constructor
    · exact fun h => h row hrow
    · intro h row' hrow'
      rw [hrow] at hrow'
      cases hrow'
      exact h
  rw [hrows]
  unfold roundOps
  rw [forFold_cons, Except.bind_eq_ok]
  have hnext : ∀ msg b x, V.sharesToMessage ctx a s.shares = .ok msg → V.encodeVerifierMessage msg = .ok b →
      rep.verifierMessages[k]? = some x → fromHex x = .ok b → ∀ S',
      (forFold ((List.range V.shares).map fun j => Operation.verifyNext (k + 1) j r true) S
        (fun S op => checkOperation V C tv S op) = .ok S' ↔ S' = S ∧ ∀ j ∈ List.range V.shares,
        ∃ st o h, s.states[j]? = some st ∧ V.verifyNext ctx st msg = .ok (.out o) ∧ rep.outShares[j]? = some h ∧
          Enc (C.encodeOutShare o) h) := by
    intro msg b x h1 h2 h3 h4 S'
    rw [forFold_map, hk]
    refine fold_same (fun S' j hj => ?_) S'
    rw [List.mem_range] at hj
    have hSj : S r j k = some s.states[j] := by
      rw [hS j hj]
      simp
    have hm := hRT.verifierMessage nonce pub ins k s.states s.shares msg b hst hsh hs.held h1 h2 s.states[j]
      (List.getElem_mem _)
    rw [op_out hctx hrep hk hj hSj ⟨x, b, h3, h4, hm⟩]
    refine and_congr_right fun _ => ?_
    rw [List.getElem?_eq_getElem (show j < s.states.length by omega)]
    simp
  constructor
  · rintro ⟨S1, h1, h2⟩
    obtain ⟨rfl, hbs, msg, x, h3, h4, mb, h5, h6⟩ := (op_message hctx hap ha hrep hst hS hrow hsh hdec).1 h1
    obtain ⟨rfl, h8⟩ := (hnext msg mb x h3 h5 h4 h6 S').1 h2
    refine ⟨rfl, hbs, msg, mb, h3, h5, listed_snoc.2 ⟨hl.messages, x, by rw [hs.messages]; exact h4, h6⟩, ?_⟩
    obtain ⟨outs, h9, h10⟩ := exists_list (n := V.shares) (P := fun j (o : OutShare × Bytes) =>
      (∀ h' : j < s.states.length, V.verifyNext ctx s.states[j] msg = .ok (.out o.1)) ∧
        C.encodeOutShare o.1 = .ok o.2 ∧ ∃ h, rep.outShares[j]? = some h ∧ fromHex h = .ok o.2) (by
      intro j hj
      obtain ⟨st, o, h, g1, g2, g3, b, g4, g5⟩ := h8 j (by simpa using hj)
      rw [List.getElem?_eq_getElem (by omega)] at g1
      cases g1
      exact ⟨(o, b), fun _ => g2, g4, h, g3, g5⟩)
    refine ⟨outs, h9, fun j h h' => ⟨(h10 j h).1 h', (h10 j h).2.1⟩, listed_iff.2 fun j hj => ?_⟩
    simp only [List.length_map] at hj
    obtain ⟨-, -, x'', g3, g4⟩ := h10 j (by omega)
    simp only [List.getElem_map]
    exact ⟨x'', g3, same_hex.2 g4⟩
  · rintro ⟨rfl, hbs, msg, mb, h3, h5, h2, outs, h9, h10, h11⟩
    obtain ⟨-, x, h4, h6⟩ := listed_snoc.1 h2
    rw [hs.messages] at h4
    refine ⟨_, (op_message hctx hap ha hrep hst hS hrow hsh hdec).2 ⟨rfl, hbs, msg, x, h3, h4, mb, h5, h6⟩,
      (hnext msg mb x h3 h5 h4 h6 _).2 ⟨rfl, fun j hj => ?_⟩⟩
    rw [List.mem_range] at hj
    obtain ⟨x', g3, g4⟩ := h11 j (hex outs[j].2) (by simp [h9, hj])
    obtain ⟨g5, g6⟩ := h10 j (by omega) (by omega)
    exact ⟨s.states[j], outs[j].1, x', by simp, g5, g3, _, g6, same_hex.1 g4⟩

/-- All the rounds but the last -/
theorem rounds_iff (hRT : Spec.RoundTrips V C key a ctx Rs) (hctx : fromHex tv.ctx = .ok ctx)
    (hap : fromHex tv.aggParam = .ok apb) (ha : V.decodeAggParam apb = .ok a) (hrep : tv.reports[r]? = some rep)
    {s : GenState VState VShare} (h0 : 0 < V.shares) (hs : GInv V key ctx a nonce pub ins 0 s) (hl : GList rep s)
    (hS : ∀ j < V.shares, S r j 0 = s.states[j]?) (n : ℕ) (hn : n < V.rounds) :
    (∀ S', forFold ((List.range n).flatMap (roundOps V.shares r)) S (fun S op => checkOperation V C tv S op) = .ok S' →
      (∀ k < n, ∀ row, rep.verifierShares[k]? = some row → ∃ bs, mapRes fromHex row = .ok bs) ∧
      ∃ s', forFold (List.range n) s (fun s i => genRound V ctx a r s i) = .ok s' ∧ GInv V key ctx a nonce pub ins n s' ∧
        GList rep s' ∧ ∀ j < V.shares, S' r j n = s'.states[j]?) ∧
    (∀ s', (∀ k < n, ∀ row, rep.verifierShares[k]? = some row → ∃ bs, mapRes fromHex row = .ok bs) →
      forFold (List.range n) s (fun s i => genRound V ctx a r s i) = .ok s' → GList rep s' →
      GInv V key ctx a nonce pub ins n s' ∧
      ∃ S', forFold ((List.range n).flatMap (roundOps V.shares r)) S (fun S op => checkOperation V C tv S op) = .ok S' ∧
        ∀ j < V.shares, S' r j n = s'.states[j]?) := by
  induction n with
  | zero =>
    constructor
    · intro S' h
      cases h
      exact ⟨by simp, s, rfl, hs, hl, hS⟩
    · intro s' _ h hl'
      cases h
      exact ⟨hs, S, rfl, hS⟩
  | succ n ih =>
    obtain ⟨ih1, ih2⟩ := ih (by omega)
    rw [List.range_succ, List.flatMap_append, List.flatMap_singleton]
    have hput : ∀ (S1 : States VState) (s' : GenState VState VShare), s'.states.length = V.shares → ∀ j < V.shares,
        putAll S1 r (n + 1) s'.states r j (n + 1) = s'.states[j]? :=
      fun S1 s' h j hj => putAll_same (by omega)
    constructor
    · intro S' h
      rw [forFold_append, Except.bind_eq_ok] at h
      obtain ⟨S1, h1, h2⟩ := h
      obtain ⟨g1, s1, g2, g3, g4, g5⟩ := ih1 S1 h1
      obtain ⟨g6, s2, g7, g8, rfl⟩ := (round_iff hRT hctx hap ha hrep h0 hn g3 g4 g5).1 h2
      have g9 := ginv_round g3 g7
      refine ⟨fun k hk => ?_, s2, ?_, g9, g8, hput S1 s2 g9.states⟩
      · by_cases h : k < n
        · exact g1 k h
        · rw [show k = n by omega]
          exact g6
      · rw [forFold_append, g2, Except.ok_bind', forFold_cons, g7]
        rfl
    · intro s2 hrows h hl'
      rw [forFold_append, Except.bind_eq_ok] at h
      obtain ⟨s1, h1, h2⟩ := h
      rw [forFold_cons, Except.bind_eq_ok] at h2
      obtain ⟨s2', h2, h3⟩ := h2
      cases h3
      have hlen : s1.states.length = V.shares ∧ GList rep s1 := by
        have h4 : ∀ n s1, forFold (List.range n) s (fun s i => genRound V ctx a r s i) = .ok s1 →
            GInv V key ctx a nonce pub ins n s1 := by
          intro n
          induction n with
          | zero =>
            intro s1 h
            cases h
            exact hs
          | succ n ih =>
            intro s1 h
            rw [List.range_succ, forFold_append, Except.bind_eq_ok] at h
            obtain ⟨s2, h5, h6⟩ := h
            rw [forFold_cons, Except.bind_eq_ok] at h6
            obtain ⟨s3, h6, h7⟩ := h6
            cases h7
            exact ginv_round (ih _ h5) h6
        have h5 := h4 n s1 h1
        refine ⟨h5.states, ?_⟩
        obtain ⟨msg, m, -, -, outs, -, -, rfl⟩ := (genRound_iff h5.states).1 h2
        refine ⟨fun k row hk => hl'.rows k row ?_, (listed_snoc.1 hl'.messages).1⟩
        dsimp only
        rw [List.getElem?_append_left (List.getElem?_eq_some_iff.1 hk).1]
        exact hk
      obtain ⟨g3, S1, g4, g5⟩ := ih2 s1 (fun k hk => hrows k (by omega)) h1 hlen.2
      have g9 := ginv_round g3 h2
      refine ⟨g9, _, ?_, hput S1 _ g9.states⟩
      rw [forFold_append, g4, Except.ok_bind']
      exact (round_iff hRT hctx hap ha hrep h0 hn g3 hlen.2 g5).2 ⟨hrows n (by omega), _, h2, hl', rfl⟩

omit [DecidableEq AggRes] in
/-- The generator for a report, spelled out -/
theorem genReport_iff {R : Meas × Bytes × Bytes} {x : Report Meas × List Operation × List OutShare} :
    genReport V C key ctx a r R = .ok x ↔ R.2.1.length = V.nonceSize ∧ ∃ pub ins pb ibs s0 s msg m,
      V.shard ctx R.1 R.2.1 R.2.2 = .ok (pub, ins) ∧ V.encodePublicShare pub = .ok pb ∧
      List.Forall₂ (fun i b => V.encodeInputShare i = .ok b) ins ibs ∧
      genInit V key ctx a r R.2.1 pub ins = .ok s0 ∧
      forFold (List.range (V.rounds - 1)) s0 (fun s i => genRound V ctx a r s i) = .ok s ∧
      V.sharesToMessage ctx a s.shares = .ok msg ∧ V.encodeVerifierMessage msg = .ok m ∧
      ∃ outs : List (OutShare × Bytes), outs.length = V.shares ∧
      (∀ j (h : j < outs.length), ∃ st, s.states[j]? = some st ∧ V.verifyNext ctx st msg = .ok (.out outs[j].1) ∧
        C.encodeOutShare outs[j].1 = .ok outs[j].2) ∧
      x = ({ measurement := R.1, nonce := hex R.2.1, rand := hex R.2.2, publicShare := hex pb, inputShares := ibs.map hex
             verifierShares := s.rows, verifierMessages := s.messages ++ [hex m], outShares := outs.map fun o => hex o.2 },
          .shard r true :: s.ops ++ .sharesToMessage (V.rounds - 1) r true ::
            (List.range V.shares).map (fun j => .verifyNext V.rounds j r true),
          outs.map (·.1)) := by
  obtain ⟨meas, nonce, rand⟩ := R
  have hin : ∀ (ins : List InShare) (l : List Hex), mapRes (fun inputShare => do
      let b ← V.encodeInputShare inputShare
      Except.ok (hex b)) ins = .ok l ↔ ∃ ibs, List.Forall₂ (fun i b => V.encodeInputShare i = .ok b) ins ibs ∧ l = ibs.map hex := by
    intro ins l
    rw [mapRes_ok_iff]
    simp only [Except.bind_eq_ok, Except.ok.injEq]
    rw [← forall₂_comp]
    refine exists_congr fun ibs => and_congr_right fun _ => ?_
    rw [← List.forall₂_map_left_iff (f := hex) (R := fun x y => x = y), List.forall₂_eq_eq_eq]
    exact eq_comm
  have hout : ∀ (s : GenState VState VShare) (msg : VMsg) (l : List (OutShare × Hex)), mapRes (fun j => do
      let state ← getI s.states j
      let outShare ← V.verifyNextOut ctx state msg
      let b ← C.encodeOutShare outShare
      Except.ok (outShare, hex b)) (List.range V.shares) = .ok l ↔ ∃ outs : List (OutShare × Bytes), outs.length = V.shares ∧
      (∀ j (h : j < outs.length), ∃ st, s.states[j]? = some st ∧ V.verifyNext ctx st msg = .ok (.out outs[j].1) ∧
        C.encodeOutShare outs[j].1 = .ok outs[j].2) ∧ l = outs.map fun o => (o.1, hex o.2) := by
    intro s msg l
    rw [mapRes_range_iff]
    unfold VdafImpl.verifyNextOut
    simp only [Except.bind_eq_ok, Except.ok.injEq, getI_eq_ok]
    constructor
    · rintro ⟨h1, h2⟩
      obtain ⟨outs, h3, h4⟩ := exists_list (n := V.shares) (P := fun j (o : OutShare × Bytes) =>
        (∃ st, s.states[j]? = some st ∧ V.verifyNext ctx st msg = .ok (.out o.1) ∧
          C.encodeOutShare o.1 = .ok o.2) ∧ l[j]? = some (o.1, hex o.2)) (by
        intro j hj
        obtain ⟨b, ⟨st, g1, o, ⟨out, g2, g3⟩, b', g4, rfl⟩, g5⟩ := h2 j hj
        cases out with
        | cont => cases g3
        | out o' =>
          cases g3
          exact ⟨(o, b'), ⟨st, g1, g2, g4⟩, g5⟩)
      refine ⟨outs, h3, fun j h => (h4 j h).1, ?_⟩
      apply List.ext_getElem (by simp; omega)
      intro j hj hj'
      have := (h4 j (by omega)).2
      rw [List.getElem?_eq_getElem hj] at this
      simpa using this
    · rintro ⟨outs, h1, h2, rfl⟩
      refine ⟨by simpa using h1, fun j hj => ?_⟩
      obtain ⟨st, g1, g2, g3⟩ := h2 j (by omega)
      exact ⟨_, ⟨st, g1, outs[j].1, ⟨_, g2, rfl⟩, _, g3, rfl⟩, by simp [h1, hj]⟩
  unfold genReport
  simp only [Except.bind_eq_ok, Except.pure_eq', Except.ok.injEq, Prod.exists, hin, hout]
  constructor
  · rintro ⟨⟨⟩, h1, pub, ins, h2, pb, h3, l, ⟨ibs, h4, rfl⟩, s0, h5, s, h6, msg, h7, m, h8, l', ⟨outs, h9, h10, rfl⟩, rfl⟩
    refine ⟨?_, pub, ins, pb, ibs, s0, s, msg, m, h2, h3, h4, h5, h6, h7, h8, outs, h9, h10, ?_⟩
    · unfold pyAssert at h1
      split at h1
      · rename_i h
        simpa using h
      · cases h1
    · simp [Function.comp_def]
  · rintro ⟨h1, pub, ins, pb, ibs, s0, s, msg, m, h2, h3, h4, h5, h6, h7, h8, outs, h9, h10, rfl⟩
    refine ⟨(), ?_, pub, ins, h2, pb, h3, _, ⟨ibs, h4, rfl⟩, s0, h5, s, h6, msg, h7, m, h8, _, ⟨outs, h9, h10, rfl⟩, ?_⟩
    · unfold pyAssert
      rw [if_pos (by simpa using h1)]
    · simp [Function.comp_def]
end
end
end Vdaf.TestVectors
