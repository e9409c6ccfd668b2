import Verif.Proofs.Ntt
import Verif.Model.Flp
import Verif.Spec.Vec

/-!
# Programs with gadget calls: traces, well-formedness, lockstep execution
-/

namespace Vdaf
open Finset

section sums
variable {F : Type} [Field F] {ι : Type} [Fintype ι]

theorem isSum_iff {vs : ι → List F} {v : List F} :
    Spec.IsSum vs v ↔ (∀ i, (vs i).length = v.length) ∧ ∀ j, coef v j = ∑ i, coef (vs i) j :=
  Iff.rfl

theorem coef_nil (j : Nat) : coef ([] : List F) j = 0 := by simp [coef]

theorem coef_append (a b : List F) (j : Nat) :
    coef (a ++ b) j = if j < a.length then coef a j else coef b (j - a.length) := by
  unfold coef
  simp only [List.getD_eq_getElem?_getD, List.getElem?_append]
  split <;> rfl

theorem coef_tab (n : Nat) (f : Nat → F) (j : Nat) :
    coef (tab n f) j = if j < n then f j else 0 := by
  split
  · next h => rw [coef_of_lt (by simpa using h), tab_getElem]
  · next h => rw [coef_of_le (by simpa using h)]

theorem coef_singleton (a : F) (j : Nat) : coef [a] j = if j = 0 then a else 0 := by
  cases j <;> simp [coef]

theorem list_eq_of_coef {a b : List F} (hl : a.length = b.length)
    (h : ∀ j < a.length, coef a j = coef b j) : a = b := by
  apply List.ext_getElem hl
  intro i h1 h2
  rw [← coef_of_lt h1, ← coef_of_lt h2, h i h1]

theorem isSum_nil : Spec.IsSum (fun _ : ι => ([] : List F)) [] := by
  rw [isSum_iff]; simp [coef_nil]

theorem IsSum.append {as bs : ι → List F} {a b : List F} (ha : Spec.IsSum as a)
    (hb : Spec.IsSum bs b) : Spec.IsSum (fun i => as i ++ bs i) (a ++ b) := by
  rw [isSum_iff] at *
  refine ⟨fun i => by simp [ha.1, hb.1], fun j => ?_⟩
  simp only [coef_append, ha.1]
  split
  · exact ha.2 j
  · exact hb.2 _

theorem isSum_tab {n : Nat} {fs : ι → Nat → F} {f : Nat → F} (h : ∀ j < n, f j = ∑ i, fs i j) :
    Spec.IsSum (fun i => tab n (fs i)) (tab n f) := by
  rw [isSum_iff]
  refine ⟨fun i => by simp, fun j => ?_⟩
  simp only [coef_tab]
  split
  · next hj => exact h j hj
  · simp

theorem isSum_singleton {as : ι → F} {a : F} (h : a = ∑ i, as i) :
    Spec.IsSum (fun i => [as i]) [a] := by
  rw [isSum_iff]
  refine ⟨fun i => by simp, fun j => ?_⟩
  simp only [coef_singleton]
  split
  · exact h
  · simp

theorem isSum_flatMap {n : Nat} {fs : ι → Nat → List F} {f : Nat → List F}
    (h : ∀ j < n, Spec.IsSum (fun i => fs i j) (f j)) :
    Spec.IsSum (fun i => (List.range n).flatMap (fs i)) ((List.range n).flatMap f) := by
  induction n with
  | zero => simpa using isSum_nil
  | succ n ih =>
    simp only [List.range_succ, List.flatMap_append, List.flatMap_cons, List.flatMap_nil,
      List.append_nil]
    exact IsSum.append (ih fun j hj => h j (by omega)) (h n (by omega))

theorem IsSum.unique {vs : ι → List F} {v w : List F} (h1 : Spec.IsSum vs v)
    (h2 : Spec.IsSum vs w) (hl : v.length = w.length) : v = w := by
  rw [isSum_iff] at *
  exact list_eq_of_coef hl fun j _ => by rw [h1.2, h2.2]

end sums

namespace Prog
variable {F α β : Type}

/-- The inputs seen so far by each gadget. -/
abbrev Log (F : Type) := ℕ → List (List F)

/-- Run with answers that depend on the gadget, the number of the call and the input. -/
def trace (ans : ℕ → ℕ → List F → F) : Prog F α → Log F → Res (α × Log F)
  | .pure a, log => .ok (a, log)
  | .raise e, _ => .error e
  | .call g inp k, log =>
    trace ans (k (ans g (log g).length inp)) (Function.update log g (log g ++ [inp]))

/-- No path raises; every call is to one of the gadgets `< n` with the right number of
inputs; gadget `g` is called exactly `c g` times; the result satisfies `Q`. -/
def WF (n : ℕ) (ar : ℕ → ℕ) (Q : α → Prop) : Prog F α → (ℕ → ℕ) → Prop
  | .pure a, c => (∀ g, c g = 0) ∧ Q a
  | .raise _, _ => False
  | .call g inp k, c =>
    g < n ∧ inp.length = ar g ∧ ∃ c', c = c' + Pi.single g 1 ∧ ∀ y, WF n ar Q (k y) c'

theorem WF.bind {n : ℕ} {ar : ℕ → ℕ} {P : α → Prop} {Q : β → Prop} {p : Prog F α}
    {f : α → Prog F β} {c1 c2 : ℕ → ℕ} (hp : WF n ar P p c1)
    (hf : ∀ a, P a → WF n ar Q (f a) c2) : WF n ar Q (p.bind f) (c1 + c2) := by
  induction p generalizing c1 with
  | pure a =>
    have : c1 = 0 := funext hp.1
    subst this
    simpa [Prog.bind] using hf a hp.2
  | raise e => exact absurd hp id
  | call g inp k ih =>
    obtain ⟨h1, h2, c', rfl, h3⟩ := hp
    refine ⟨h1, h2, c' + c2, by ring, fun y => ih y (h3 y)⟩

theorem WF.ofRes {n : ℕ} {ar : ℕ → ℕ} {Q : α → Prop} {r : Res α} {a : α} (h : r = .ok a)
    (hQ : Q a) : WF n ar Q (ofRes r : Prog F α) 0 := by
  subst h; exact ⟨fun _ => rfl, hQ⟩

theorem WF.forFold {n : ℕ} {ar : ℕ → ℕ} (l : List β) (init : α) (f : α → β → Prog F α)
    (c : ℕ → ℕ) (P : ℕ → α → Prop) (h0 : P 0 init)
    (hs : ∀ i (hi : i < l.length) a, P i a → WF n ar (P (i + 1)) (f a l[i]) c) :
    WF n ar (P l.length) (forFold l init f) (l.length • c) := by
  induction l generalizing init P with
  | nil => simpa [Prog.forFold, WF] using h0
  | cons b t ih =>
    simp only [Prog.forFold, List.length_cons, succ_nsmul']
    exact WF.bind (hs 0 (by simp) init h0) fun a ha =>
      ih a (fun i => P (i + 1)) ha fun i hi a ha => hs (i + 1) (by simpa using hi) a ha

theorem WF.mono {n : ℕ} {ar : ℕ → ℕ} {P Q : α → Prop} {p : Prog F α} {c : ℕ → ℕ}
    (h : WF n ar P p c) (hPQ : ∀ a, P a → Q a) : WF n ar Q p c := by
  induction p generalizing c with
  | pure a => exact ⟨h.1, hPQ _ h.2⟩
  | raise e => exact h
  | call g inp k ih =>
    obtain ⟨h1, h2, c', rfl, h3⟩ := h
    exact ⟨h1, h2, c', rfl, fun y => ih y (h3 y)⟩

theorem trace_wf {n : ℕ} {ar : ℕ → ℕ} {Q : α → Prop} (ans : ℕ → ℕ → List F → F) {p : Prog F α}
    {c : ℕ → ℕ} (h : WF n ar Q p c) (log : Log F) :
    ∃ out log', trace ans p log = .ok (out, log') ∧ Q out ∧
      (∀ g, (log' g).length = (log g).length + c g) ∧ (∀ g, log g <+: log' g) ∧
      ∀ g, ∀ inp ∈ log' g, inp ∈ log g ∨ inp.length = ar g := by
  induction p generalizing c log with
  | pure a => exact ⟨a, log, rfl, h.2, fun g => by simp [h.1], fun g => List.prefix_rfl,
      fun g inp hi => .inl hi⟩
  | raise e => exact absurd h id
  | call g inp k ih =>
    obtain ⟨h1, h2, c', rfl, h3⟩ := h
    obtain ⟨out, log', ht, hQ, hl, hpre, hmem⟩ := ih (ans g (log g).length inp) (h3 _)
      (Function.update log g (log g ++ [inp]))
    refine ⟨out, log', ht, hQ, fun g' => ?_, fun g' => ?_, fun g' i hi => ?_⟩
    · rw [hl g']
      by_cases hg : g' = g
      · subst hg; simp; ring
      · simp [hg]
    · refine List.IsPrefix.trans ?_ (hpre g')
      by_cases hg : g' = g
      · subst hg; simp
      · simp [hg]
    · rcases hmem g' i hi with h | h
      · by_cases hg : g' = g
        · subst hg
          simp only [Function.update_self, List.mem_append, List.mem_singleton] at h
          rcases h with h | rfl
          · exact .inl h
          · exact .inr h2
        · simp only [ne_eq, hg, not_false_eq_true, Function.update_of_ne] at h
          exact .inl h
      · exact .inr h

/-- Running with an implementation that simulates the answers. -/
theorem run_sim {n : ℕ} {ar C : ℕ → ℕ} {Q : α → Prop} {ans : ℕ → ℕ → List F → F} {σ : Type}
    (h : σ → Nat → List F → Res (F × σ)) (Rel : Log F → σ → Prop)
    (hstep : ∀ log s g inp, Rel log s → g < n → inp.length = ar g → (log g).length < C g →
      ∃ s', h s g inp = .ok (ans g (log g).length inp, s') ∧
        Rel (Function.update log g (log g ++ [inp])) s')
    {p : Prog F α} {c : ℕ → ℕ} (hp : WF n ar Q p c) (log : Log F) (s : σ)
    (hC : ∀ g, (log g).length + c g ≤ C g) (hR : Rel log s) :
    ∃ s' out log', run h p s = .ok (out, s') ∧ trace ans p log = .ok (out, log') ∧
      Rel log' s' := by
  induction p generalizing c log s with
  | pure a => exact ⟨s, a, log, rfl, rfl, hR⟩
  | raise e => exact absurd hp id
  | call g inp k ih =>
    obtain ⟨h1, h2, c', rfl, h3⟩ := hp
    have hg := hC g
    simp only [Pi.add_apply, Pi.single_eq_same] at hg
    obtain ⟨s', hs', hR'⟩ := hstep log s g inp hR h1 h2 (by omega)
    obtain ⟨s'', out, log', hr, ht, hR''⟩ := ih _ (h3 _)
      (Function.update log g (log g ++ [inp])) s' (fun g' => by
        have hg' := hC g'
        by_cases hgg : g' = g
        · subst hgg; simp only [Pi.add_apply, Pi.single_eq_same] at hg'; simp; omega
        · simp only [Pi.add_apply, ne_eq, hgg, not_false_eq_true, Pi.single_eq_of_ne] at hg'
          simpa [hgg] using hg') hR'
    refine ⟨s'', out, log', ?_, ht, hR''⟩
    simp only [run, hs', hr]

/-- If two answer functions agree along the trace of the first then the traces agree. -/
theorem trace_congr {ans ans' : ℕ → ℕ → List F → F} {n : ℕ} {ar : ℕ → ℕ} {Q : α → Prop}
    {p : Prog F α} {c : ℕ → ℕ} (hp : WF n ar Q p c) {log log' : Log F} {out : α}
    (ht : trace ans p log = .ok (out, log'))
    (h : ∀ g k inp, g < n → (log' g)[k]? = some inp → ans g k inp = ans' g k inp) :
    trace ans' p log = .ok (out, log') := by
  induction p generalizing c log with
  | pure a => exact ht
  | raise e => exact absurd hp id
  | call g inp k ih =>
    obtain ⟨h1, h2, c', rfl, h3⟩ := hp
    simp only [trace] at ht ⊢
    obtain ⟨out2, log2, ht2, -, -, hpre, -⟩ := trace_wf ans (h3 (ans g (log g).length inp))
      (Function.update log g (log g ++ [inp]))
    rw [ht] at ht2
    obtain ⟨rfl, rfl⟩ : out = out2 ∧ log' = log2 := by simpa using ht2
    have hk : (log' g)[(log g).length]? = some inp := by
      obtain ⟨t, ht⟩ := hpre g
      rw [← ht]; simp
    rw [← h g _ inp h1 hk]
    exact ih _ (h3 _) ht

/-! ### Lockstep execution on additive shares -/

variable [Field F] {ι : Type} [Fintype ι]

/-- `p` and the programs `ps i` make the same gadget calls, on inputs that are shares of the
inputs of `p`, whatever the (additively shared) answers are, and end with results in `R`. -/
def Lock (R : (ι → α) → α → Prop) : Prog F α → (ι → Prog F α) → Prop
  | .pure a, ps => ∃ as, (∀ i, ps i = .pure (as i)) ∧ R as a
  | .raise _, _ => False
  | .call g inp k, ps => ∃ (inps : ι → List F) (ks : ι → F → Prog F α), (∀ i, ps i = .call g (inps i) (ks i)) ∧
      Spec.IsSum inps inp ∧ ∀ ys : ι → F, Lock R (k (∑ i, ys i)) (fun i => ks i (ys i))

theorem Lock.bind {R : (ι → α) → α → Prop} {S : (ι → β) → β → Prop} {p : Prog F α}
    {ps : ι → Prog F α} {f : α → Prog F β} {fs : ι → α → Prog F β} (hp : Lock R p ps)
    (hf : ∀ as a, R as a → Lock S (f a) (fun i => fs i (as i))) :
    Lock S (p.bind f) (fun i => (ps i).bind (fs i)) := by
  induction p generalizing ps with
  | pure a =>
    obtain ⟨as, h1, h2⟩ := hp
    simp only [Prog.bind, h1]
    exact hf as a h2
  | raise e => exact absurd hp id
  | call g inp k ih =>
    obtain ⟨inps, ks, h1, h2, h3⟩ := hp
    simp only [Prog.bind, h1]
    exact ⟨inps, fun i y => (ks i y).bind (fs i), fun i => rfl, h2, fun ys => ih _ (h3 ys)⟩

theorem Lock.ofRes {R : (ι → α) → α → Prop} {r : Res α} {rs : ι → Res α} {a : α} {as : ι → α}
    (h : r = .ok a) (hs : ∀ i, rs i = .ok (as i)) (hR : R as a) :
    Lock R (ofRes r : Prog F α) (fun i => ofRes (rs i)) := by
  subst h; exact ⟨as, fun i => by show Prog.ofRes (rs i) = _; rw [hs i]; rfl, hR⟩

theorem Lock.pure {R : (ι → α) → α → Prop} {a : α} {as : ι → α} (hR : R as a) :
    Lock R (.pure a : Prog F α) (fun i => .pure (as i)) := ⟨as, fun _ => rfl, hR⟩

theorem Lock.call {R : (ι → F) → F → Prop} {g : ℕ} {inp : List F} {inps : ι → List F}
    (h : Spec.IsSum inps inp) (hR : ∀ ys : ι → F, R ys (∑ i, ys i)) :
    Lock R (.call g inp .pure : Prog F F) (fun i => .call g (inps i) .pure) :=
  ⟨inps, fun _ => .pure, fun _ => rfl, h, fun ys => ⟨ys, fun _ => rfl, hR ys⟩⟩

/-- The same loop on both sides. -/
theorem Lock.forFold {γ : Type} (R : (ι → α) → α → Prop) (l : List γ) (init : α) (inits : ι → α)
    (f : α → γ → Prog F α) (fs : ι → α → γ → Prog F α) (h0 : R inits init)
    (hs : ∀ x ∈ l, ∀ as a, R as a → Lock R (f a x) (fun i => fs i (as i) x)) :
    Lock R (forFold l init f) (fun i => forFold l (inits i) (fs i)) := by
  induction l generalizing init inits with
  | nil => exact ⟨inits, fun _ => rfl, h0⟩
  | cons x t ih =>
    simp only [Prog.forFold]
    exact Lock.bind (hs x (by simp) _ _ h0) fun as a ha =>
      ih a as ha fun y hy => hs y (by simp [hy])

/-- Entry `j` of the `k`-th recorded input, zero if there is none. -/
def wv (inps : List (List F)) (k j : ℕ) : F := coef (inps.getD k []) j

theorem wv_append (inps : List (List F)) (inp : List F) (k j : ℕ) :
    wv (inps ++ [inp]) k j = if k = inps.length then coef inp j else wv inps k j := by
  unfold wv
  simp only [List.getD_eq_getElem?_getD, List.getElem?_append]
  split
  · next h => rw [if_neg (by omega)]
  · next h =>
    by_cases hk : k = inps.length
    · simp [hk]
    · have : inps.length < k := by omega
      rw [if_neg hk]
      rw [List.getElem?_eq_none (by simp; omega)]
      simp [this.le, coef_nil]

theorem wv_of_le {inps : List (List F)} {k : ℕ} (h : inps.length ≤ k) (j : ℕ) :
    wv inps k j = 0 := by
  unfold wv; simp [h, coef_nil]

/-- The logs `logs i` are shares of the log `log`. -/
def LogSum (logs : ι → Log F) (log : Log F) : Prop :=
  (∀ i g, (logs i g).length = (log g).length) ∧
    ∀ g k j, wv (log g) k j = ∑ i, wv (logs i g) k j

theorem trace_lock {R : (ι → α) → α → Prop} {p : Prog F α} {ps : ι → Prog F α}
    (h : Lock R p ps) {log : Log F} {logs : ι → Log F} (hlog : LogSum logs log)
    {ans : ℕ → ℕ → F} {anss : ι → ℕ → ℕ → F} (hans : ∀ g k, ans g k = ∑ i, anss i g k) :
    ∃ out outs log' logs', trace (fun g k _ => ans g k) p log = .ok (out, log') ∧
      (∀ i, trace (fun g k _ => anss i g k) (ps i) (logs i) = .ok (outs i, logs' i)) ∧
      R outs out ∧ LogSum logs' log' := by
  induction p generalizing ps log logs with
  | pure a =>
    obtain ⟨as, h1, h2⟩ := h
    exact ⟨a, as, log, logs, rfl, fun i => by rw [h1 i]; rfl, h2, hlog⟩
  | raise e => exact absurd h id
  | call g inp k ih =>
    obtain ⟨inps, ks, h1, h2, h3⟩ := h
    have hstep := h3 (fun i => anss i g (log g).length)
    rw [← hans] at hstep
    obtain ⟨out, outs, log', logs', ha, hb, hc, hd⟩ := ih _ hstep
      (log := Function.update log g (log g ++ [inp]))
      (logs := fun i => Function.update (logs i) g (logs i g ++ [inps i])) (by
        constructor
        · intro i g'
          by_cases hg : g' = g
          · subst hg; simp [hlog.1]
          · simp [hg, hlog.1]
        · intro g' k j
          by_cases hg : g' = g
          · subst hg
            simp only [Function.update_self, wv_append, hlog.1]
            split
            · exact (isSum_iff.1 h2).2 j
            · exact hlog.2 _ _ _
          · simp only [ne_eq, hg, not_false_eq_true, Function.update_of_ne]
            exact hlog.2 _ _ _)
    refine ⟨out, outs, log', logs', ha, fun i => ?_, hc, hd⟩
    rw [h1 i]
    simp only [trace, hlog.1]
    exact hb i

end Prog
end Vdaf
