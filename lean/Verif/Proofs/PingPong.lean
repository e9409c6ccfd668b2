import Verif.Spec.PingPong
import Verif.Proofs.Py
import Verif.Proofs.Common
import Verif.Proofs.Prio3Codec

/-! # Lemmas on the ping-pong topology -/

namespace Vdaf.PingPong

/-! ## Framing -/

/-- An item with its length -/
def frame (item : Bytes) : Bytes := (natToLe item.length 4).reverse ++ item

theorem frame_eq (item : Bytes) (h : item.length < 2 ^ 32) : frame item =
    [UInt8.ofNat (item.length / 256 ^ 3), UInt8.ofNat (item.length / 256 ^ 2 % 256),
      UInt8.ofNat (item.length / 256 % 256), UInt8.ofNat (item.length % 256)] ++ item := by
  unfold frame
  simp only [natToLe, List.reverse_cons, List.reverse_nil, List.nil_append, List.cons_append, List.cons.injEq,
    and_true]
  constructor <;> congr 1 <;> omega

theorem encode_loop (items : List Bytes) (b r : Bytes) :
    forFold items b (fun encoded item => do
      let l ← toBeBytes item.length 4
      return encoded ++ l ++ item) = .ok r ↔
    (∀ i ∈ items, i.length < 2 ^ 32) ∧ r = b ++ (items.map frame).flatten := by
  induction items generalizing b with
  | nil => simp [eq_comm]
  | cons i l ih =>
    rw [forFold_cons]
    by_cases hi : i.length < 2 ^ 32
    · rw [toBeBytes_nat (by norm_num at *; exact hi)]
      simp only [Except.ok_bind', pure, Except.pure] at ih ⊢
      rw [ih]
      simp only [List.mem_cons, forall_eq_or_imp, hi, true_and, List.map_cons, List.flatten_cons, frame,
        List.append_assoc]
    · have : toBeBytes (i.length : Int) 4 = .error (.value "bad to_be_bytes call") := by
        unfold toBeBytes
        rw [if_pos]
        right; norm_num at *; omega
      rw [this]
      simp only [Except.error_bind', reduceCtorEq, List.mem_cons, forall_eq_or_imp, hi, false_and]

theorem encode_iff (t : ℕ) (items : List Bytes) (b : Bytes) : encode t items = .ok b ↔
    t < 256 ∧ (∀ i ∈ items, i.length < 2 ^ 32) ∧ b = UInt8.ofNat t :: (items.map frame).flatten := by
  unfold encode byte
  by_cases ht : t < 256
  · rw [if_pos ht]
    simp only [Except.ok_bind', encode_loop, ht, true_and, List.cons_append, List.nil_append]
  · rw [if_neg ht]
    simp [ht]

theorem decodeItem_frame (item rest : Bytes) (acc : List Bytes) (h : item.length < 2 ^ 32) :
    decodeItem (frame item ++ rest, acc) = .ok (rest, acc ++ [item]) := by
  unfold decodeItem frame
  simp only [List.append_assoc]
  rw [front_append' (by simp [natToLe_length])]
  simp only [Except.ok_bind']
  have : fromBeBytes (natToLe item.length 4).reverse = item.length := by
    unfold fromBeBytes
    rw [List.reverse_reverse, natOfLe_natToLe, Nat.mod_eq_of_lt (by norm_num at *; exact h)]
  rw [this, front_append]
  rfl

theorem decodeItem_ok {enc rest : Bytes} {acc acc' : List Bytes} (h : decodeItem (enc, acc) = .ok (rest, acc')) :
    ∃ item, item.length < 2 ^ 32 ∧ enc = frame item ++ rest ∧ acc' = acc ++ [item] := by
  unfold decodeItem at h
  rw [Except.bind_eq_ok] at h; obtain ⟨⟨l, e1⟩, h1, h⟩ := h
  dsimp only at h
  rw [Except.bind_eq_ok] at h; obtain ⟨⟨item, e2⟩, h2, h⟩ := h
  dsimp only at h
  simp only [Except.pure_eq', Except.ok.injEq, Prod.mk.injEq] at h
  obtain ⟨rfl, rfl⟩ := h
  rw [front_eq_ok] at h1 h2
  obtain ⟨he1, hl⟩ := h1
  obtain ⟨he2, hi⟩ := h2
  dsimp only at he1
  have hlt : fromBeBytes l < 2 ^ 32 := by
    have := natOfLe_lt l.reverse
    rw [List.length_reverse, hl] at this
    unfold fromBeBytes
    norm_num at *; exact this
  refine ⟨item, by omega, ?_, rfl⟩
  subst he1 he2
  have : (natToLe item.length 4).reverse = l := by
    rw [hi]
    unfold fromBeBytes
    have := natToLe_natOfLe l.reverse
    rw [List.length_reverse, hl] at this
    rw [this, List.reverse_reverse]
  unfold frame
  rw [this, List.append_assoc]

theorem decode_loop (l : List ℕ) (enc rest : Bytes) (acc out : List Bytes) :
    forFold l (enc, acc) (fun st _ => decodeItem st) = .ok (rest, out) ↔
    ∃ items : List Bytes, items.length = l.length ∧ (∀ i ∈ items, i.length < 2 ^ 32) ∧
      enc = (items.map frame).flatten ++ rest ∧ out = acc ++ items := by
  induction l generalizing enc acc with
  | nil =>
    simp only [forFold_nil, Except.ok.injEq, Prod.mk.injEq, List.length_nil, List.length_eq_zero_iff]
    constructor
    · rintro ⟨rfl, rfl⟩; exact ⟨[], by simp⟩
    · rintro ⟨_, rfl, _, h1, h2⟩; simp at h1 h2; exact ⟨h1, h2.symm⟩
  | cons a l ih =>
    rw [forFold_cons]
    constructor
    · intro h
      rw [Except.bind_eq_ok] at h
      obtain ⟨⟨e1, acc1⟩, h1, h⟩ := h
      obtain ⟨i, hi, rfl, rfl⟩ := decodeItem_ok h1
      obtain ⟨items, hl, hs, rfl, rfl⟩ := (ih _ _).1 h
      exact ⟨i :: items, by simp [hl], by simpa using ⟨by simpa using hi, by simpa using hs⟩, by simp, by simp⟩
    · rintro ⟨items, hl, hs, rfl, rfl⟩
      cases items with
      | nil => simp at hl
      | cons i items =>
        simp only [List.mem_cons, forall_eq_or_imp] at hs
        simp only [List.map_cons, List.flatten_cons, List.append_assoc]
        rw [decodeItem_frame _ _ _ hs.1, Except.ok_bind']
        exact (ih _ _).2 ⟨items, by simpa using hl, hs.2, rfl, by simp⟩

theorem numCounts_iff (t n : ℕ) : numCounts t = .ok n ↔ Spec.pingPongItems t = some n := by
  unfold numCounts Spec.pingPongItems
  rcases t with _ | _ | _ | t <;> simp

theorem decode_iff (b : Bytes) (t : ℕ) (items : List Bytes) : decode b = .ok (t, items) ↔
    Spec.pingPongItems t = some items.length ∧ encode t items = .ok b := by
  rw [encode_iff]
  unfold decode
  constructor
  · intro h
    rw [Except.bind_eq_ok] at h; obtain ⟨⟨ty, e1⟩, h1, h⟩ := h
    dsimp only at h
    rw [Except.bind_eq_ok] at h; obtain ⟨x, h2, h⟩ := h
    rw [Except.bind_eq_ok] at h; obtain ⟨n, h3, h⟩ := h
    rw [Except.bind_eq_ok] at h; obtain ⟨⟨e2, items'⟩, h4, h⟩ := h
    dsimp only at h
    rw [Except.bind_eq_ok] at h; obtain ⟨_, h5, h⟩ := h
    simp only [Except.pure_eq', Except.ok.injEq, Prod.mk.injEq] at h
    obtain ⟨rfl, rfl⟩ := h
    rw [front_eq_ok] at h1
    rw [getI_eq_ok] at h2
    rw [numCounts_iff] at h3
    rw [decode_loop] at h4
    obtain ⟨its, hl, hs, rfl, rfl⟩ := h4
    simp only [List.nil_append, List.length_range] at *
    obtain ⟨rfl, hty⟩ := h1
    obtain ⟨y, rfl⟩ := List.length_eq_one_iff.1 hty
    simp only [List.length_cons, List.length_nil, zero_add, Nat.lt_add_one, getElem?_pos, List.getElem_cons_zero,
      Option.some.injEq] at h2
    subst h2
    have he : e2 = [] := by simpa using h5
    subst he
    refine ⟨by rw [h3, hl], y.toNat_lt, hs, by simp⟩
  · rintro ⟨hn, ht, hs, rfl⟩
    have : front 1 (UInt8.ofNat t :: (items.map frame).flatten) =
        .ok ([UInt8.ofNat t], (items.map frame).flatten) := by
      have := front_append [UInt8.ofNat t] (items.map frame).flatten
      simpa using this
    rw [this]
    have hx : (UInt8.ofNat t).toNat = t := by simp; omega
    simp only [Except.ok_bind', getI, List.getElem?_cons_zero, hx]
    rw [(numCounts_iff _ _).2 hn]
    simp only [Except.ok_bind']
    rw [(decode_loop (List.range items.length) (items.map frame).flatten [] [] items).2
      ⟨items, by simp, hs, by simp, by simp⟩]
    simp [raiseIf]

/-! ## Single steps -/

variable {Meas AggParam PubShare InShare OutShare AggShare AggRes VState VShare VMsg : Type}
variable {V : VdafImpl Meas AggParam PubShare InShare OutShare AggShare AggRes VState VShare VMsg}

theorem catchAll_cases (x : Res (PingPongState VState VShare OutShare)) :
    (∃ s, catchAll x = .ok s) ∨ (catchAll x = .error .fuel ∧ x = .error .fuel) := by
  rcases x with e | s
  · cases e <;> simp [catchAll]
  · simp [catchAll]

theorem catchAll_error (e : Err) :
    catchAll (.error e : Res (PingPongState VState VShare OutShare)) = .error .fuel ∨
    catchAll (.error e : Res (PingPongState VState VShare OutShare)) = .ok .rejected := by
  cases e <;> simp [catchAll]

theorem catchAll_ok {x : Res (PingPongState VState VShare OutShare)} {s : PingPongState VState VShare OutShare}
    (hs : s ≠ .rejected) : catchAll x = .ok s ↔ x = .ok s := by
  rcases x with e | s'
  · cases e <;> simp [catchAll, hs.symm]
  · simp [catchAll]

theorem encode_ne_fuel (t : ℕ) (items : List Bytes) : encode t items ≠ .error .fuel := by
  unfold encode byte
  split
  · simp only [Except.ok_bind']
    generalize [UInt8.ofNat t] = b
    induction items generalizing b with
    | nil => simp
    | cons i l ih =>
      rw [forFold_cons]
      unfold toBeBytes
      split
      · simp
      · simp only [Except.ok_bind', pure, Except.pure]; exact ih _
  · simp

theorem front_ne_fuel {α : Type} (n : ℕ) (l : List α) : front n l ≠ .error .fuel := by
  unfold front; split <;> simp

theorem getI_ne_fuel {α : Type} (l : List α) (n : ℕ) : getI l n ≠ .error .fuel := by
  unfold getI; split <;> simp

theorem bind_ne_fuel {α β : Type} {x : Res α} {f : α → Res β} (h : x ≠ .error .fuel)
    (h' : ∀ a, f a ≠ .error .fuel) : (x >>= f) ≠ .error .fuel := by
  rcases x with e | a
  · simpa using h
  · simpa using h' a

theorem decodeItem_ne_fuel (st : Bytes × List Bytes) : decodeItem st ≠ .error .fuel := by
  unfold decodeItem
  refine bind_ne_fuel (front_ne_fuel _ _) fun _ => bind_ne_fuel (front_ne_fuel _ _) fun _ => ?_
  simp

theorem decode_ne_fuel (b : Bytes) : decode b ≠ .error .fuel := by
  unfold decode
  refine bind_ne_fuel (front_ne_fuel _ _) fun _ => bind_ne_fuel (getI_ne_fuel _ _) fun t => bind_ne_fuel ?_ fun n =>
    bind_ne_fuel ?_ fun x => bind_ne_fuel ?_ fun _ => ?_
  · unfold numCounts
    split
    · simp
    · split
      · simp
      · split <;> simp
  · generalize (_, []) = st
    generalize List.range n = l
    induction l generalizing st with
    | nil => simp
    | cons i l ih => rw [forFold_cons]; exact bind_ne_fuel (decodeItem_ne_fuel _) fun _ => ih _
  · unfold raiseIf; split <;> simp
  · simp

theorem unpack_ne_fuel (o : Next VState VShare OutShare) : unpack o ≠ .error .fuel := by
  cases o <;> simp [unpack]

theorem transition_ne_fuel (hT : Spec.Terminates V) (ctx : Bytes) (a : AggParam) (shs : List VShare) (st : VState)
    (r : ℕ) : transition V ctx a shs st r ≠ .error .fuel := by
  unfold transition
  refine bind_ne_fuel (hT.sharesToMessage _ _ _) fun _ => bind_ne_fuel (hT.encodeVerifierMessage _) fun _ =>
    bind_ne_fuel (hT.verifyNext _ _ _) fun _ => ?_
  split
  · exact bind_ne_fuel (encode_ne_fuel _ _) fun _ => by simp
  · exact bind_ne_fuel (unpack_ne_fuel _) fun _ => bind_ne_fuel (hT.encodeVerifierShare _) fun _ =>
      bind_ne_fuel (encode_ne_fuel _ _) fun _ => by simp

theorem leaderInit_ne_fuel (hT : Spec.Terminates V) (k c a n p i : Bytes) :
    leaderInit V k c a n p i ≠ .error .fuel := by
  unfold leaderInit
  intro h
  rcases catchAll_cases (x := _) with ⟨s, hs⟩ | ⟨_, hs⟩
  · rw [h] at hs; simp at hs
  · refine absurd hs ?_
    exact bind_ne_fuel (hT.decodeAggParam _) fun _ => bind_ne_fuel (hT.decodePublicShare _) fun _ =>
      bind_ne_fuel (hT.decodeInputShare _ _) fun _ => bind_ne_fuel (hT.verifyInit _ _ _ _ _ _ _) fun _ =>
      bind_ne_fuel (hT.encodeVerifierShare _) fun _ => bind_ne_fuel (encode_ne_fuel _ _) fun _ => by simp

theorem helperInit_ne_fuel (hT : Spec.Terminates V) (k c a n p i m : Bytes) :
    helperInit V k c a n p i m ≠ .error .fuel := by
  unfold helperInit
  intro h
  rcases catchAll_cases (x := _) with ⟨s, hs⟩ | ⟨_, hs⟩
  · rw [h] at hs; simp at hs
  · refine absurd hs ?_
    refine bind_ne_fuel (hT.decodeAggParam _) fun _ => bind_ne_fuel (hT.decodePublicShare _) fun _ =>
      bind_ne_fuel (hT.decodeInputShare _ _) fun _ => bind_ne_fuel (hT.verifyInit _ _ _ _ _ _ _) fun _ =>
      bind_ne_fuel (decode_ne_fuel _) fun _ => ?_
    dsimp only
    split
    · simp
    · exact bind_ne_fuel (getI_ne_fuel _ _) fun _ => bind_ne_fuel (hT.decodeVerifierShare _ _) fun _ =>
        bind_ne_fuel (hT.decodeAggParam _) fun _ => transition_ne_fuel hT _ _ _ _ _

theorem continued_ne_fuel (hT : Spec.Terminates V) (isLeader : Bool) (c a : Bytes) (st : VState) (r : ℕ) (m : Bytes) :
    continued V isLeader c a st r m ≠ .error .fuel := by
  unfold continued
  intro h
  rcases catchAll_cases (x := _) with ⟨s, hs⟩ | ⟨_, hs⟩
  · rw [h] at hs; simp at hs
  · refine absurd hs ?_
    refine bind_ne_fuel (decode_ne_fuel _) fun _ => ?_
    dsimp only
    split
    · simp
    · refine bind_ne_fuel (getI_ne_fuel _ _) fun _ => bind_ne_fuel (hT.decodeVerifierMessage _ _) fun _ =>
        bind_ne_fuel (hT.verifyNext _ _ _) fun _ => ?_
      split
      · exact bind_ne_fuel (unpack_ne_fuel _) fun _ => bind_ne_fuel (getI_ne_fuel _ _) fun _ =>
          bind_ne_fuel (hT.decodeVerifierShare _ _) fun _ => bind_ne_fuel (hT.decodeAggParam _) fun _ =>
          transition_ne_fuel hT _ _ _ _ _
      · split <;> simp

theorem transition_ok {ctx : Bytes} {a : AggParam} {shs : List VShare} {st : VState} {r : ℕ}
    {s : PingPongState VState VShare OutShare} (h : transition V ctx a shs st r = .ok s) :
    ∃ msg bm out, V.sharesToMessage ctx a shs = .ok msg ∧ V.encodeVerifierMessage msg = .ok bm ∧
      V.verifyNext ctx st msg = .ok out ∧
      ((r + 1 = V.rounds ∧ ∃ b, encode 2 [bm] = .ok b ∧ s = .finishedWithOutbound out b) ∨
        (r + 1 ≠ V.rounds ∧ ∃ st' sh' bs b, out = .cont st' sh' ∧ V.encodeVerifierShare sh' = .ok bs ∧
          encode 1 [bm, bs] = .ok b ∧ s = .continued st' (r + 1) b)) := by
  unfold transition at h
  rw [Except.bind_eq_ok] at h; obtain ⟨msg, h1, h⟩ := h
  rw [Except.bind_eq_ok] at h; obtain ⟨bm, h2, h⟩ := h
  rw [Except.bind_eq_ok] at h; obtain ⟨out, h3, h⟩ := h
  refine ⟨msg, bm, out, h1, h2, h3, ?_⟩
  split at h
  · rename_i hr
    rw [Except.bind_eq_ok] at h; obtain ⟨b, h4, h⟩ := h
    simp only [Except.pure_eq', Except.ok.injEq] at h
    exact .inl ⟨hr, b, h4, h.symm⟩
  · rename_i hr
    rw [Except.bind_eq_ok] at h; obtain ⟨⟨st', sh'⟩, h4, h⟩ := h
    dsimp only at h
    rw [Except.bind_eq_ok] at h; obtain ⟨bs, h5, h⟩ := h
    rw [Except.bind_eq_ok] at h; obtain ⟨b, h6, h⟩ := h
    simp only [Except.pure_eq', Except.ok.injEq] at h
    refine .inr ⟨hr, st', sh', bs, b, ?_, h5, h6, h.symm⟩
    cases out with
    | cont x y => simpa [unpack] using h4
    | out o => simp [unpack] at h4

theorem leaderInit_ok {k c a n p i : Bytes} {s : PingPongState VState VShare OutShare}
    (h : leaderInit V k c a n p i = .ok s) (hs : s ≠ .rejected) :
    ∃ a' p' i' st sh bs b, V.decodeAggParam a = .ok a' ∧ V.decodePublicShare p = .ok p' ∧
      V.decodeInputShare 0 i = .ok i' ∧ V.verifyInit k c 0 a' n p' i' = .ok (st, sh) ∧
      V.encodeVerifierShare sh = .ok bs ∧ encode 0 [bs] = .ok b ∧ s = .continued st 0 b := by
  unfold leaderInit at h
  rw [catchAll_ok hs] at h
  rw [Except.bind_eq_ok] at h; obtain ⟨a', h1, h⟩ := h
  rw [Except.bind_eq_ok] at h; obtain ⟨p', h2, h⟩ := h
  rw [Except.bind_eq_ok] at h; obtain ⟨i', h3, h⟩ := h
  rw [Except.bind_eq_ok] at h; obtain ⟨⟨st, sh⟩, h4, h⟩ := h
  dsimp only at h
  rw [Except.bind_eq_ok] at h; obtain ⟨bs, h5, h⟩ := h
  rw [Except.bind_eq_ok] at h; obtain ⟨b, h6, h⟩ := h
  simp only [Except.pure_eq', Except.ok.injEq] at h
  exact ⟨a', p', i', st, sh, bs, b, h1, h2, h3, h4, h5, h6, h.symm⟩

theorem helperInit_ok {k c a n p i m : Bytes} {s : PingPongState VState VShare OutShare}
    (h : helperInit V k c a n p i m = .ok s) (hs : s ≠ .rejected) :
    ∃ a' p' i' st sh items bs peer, V.decodeAggParam a = .ok a' ∧ V.decodePublicShare p = .ok p' ∧
      V.decodeInputShare 1 i = .ok i' ∧ V.verifyInit k c 1 a' n p' i' = .ok (st, sh) ∧
      decode m = .ok (0, items) ∧ items[0]? = some bs ∧ V.decodeVerifierShare st bs = .ok peer ∧
      transition V c a' [peer, sh] st 0 = .ok s := by
  unfold helperInit at h
  rw [catchAll_ok hs] at h
  rw [Except.bind_eq_ok] at h; obtain ⟨a', h1, h⟩ := h
  rw [Except.bind_eq_ok] at h; obtain ⟨p', h2, h⟩ := h
  rw [Except.bind_eq_ok] at h; obtain ⟨i', h3, h⟩ := h
  rw [Except.bind_eq_ok] at h; obtain ⟨⟨st, sh⟩, h4, h⟩ := h
  dsimp only at h
  rw [Except.bind_eq_ok] at h; obtain ⟨⟨t, items⟩, h5, h⟩ := h
  dsimp only at h
  split at h
  · simp only [Except.pure_eq', Except.ok.injEq] at h; exact absurd h.symm hs
  · rename_i ht
    simp only [ne_eq, not_not] at ht
    subst ht
    rw [Except.bind_eq_ok] at h; obtain ⟨bs, h6, h⟩ := h
    rw [Except.bind_eq_ok] at h; obtain ⟨peer, h7, h⟩ := h
    rw [Except.bind_eq_ok] at h; obtain ⟨a'', h8, h⟩ := h
    rw [h1] at h8
    simp only [Except.ok.injEq] at h8
    subst h8
    exact ⟨a', p', i', st, sh, items, bs, peer, h1, h2, h3, h4, h5, getI_eq_ok.1 h6, h7, h⟩

theorem continued_ok {isLeader : Bool} {c a : Bytes} {st : VState} {r : ℕ} {m : Bytes}
    {s : PingPongState VState VShare OutShare} (h : continued V isLeader c a st r m = .ok s) (hs : s ≠ .rejected) :
    ∃ t items bm msg out, decode m = .ok (t, items) ∧ t ≠ 0 ∧ items[0]? = some bm ∧
      V.decodeVerifierMessage st bm = .ok msg ∧ V.verifyNext c st msg = .ok out ∧
      ((r + 1 < V.rounds ∧ t = 1 ∧ ∃ st' sh' bs peer a', out = .cont st' sh' ∧ items[1]? = some bs ∧
          V.decodeVerifierShare st' bs = .ok peer ∧ V.decodeAggParam a = .ok a' ∧
          transition V c a' (if isLeader then [sh', peer] else [peer, sh']) st' (r + 1) = .ok s) ∨
        (r + 1 = V.rounds ∧ t = 2 ∧ s = .finished out)) := by
  unfold continued at h
  rw [catchAll_ok hs] at h
  rw [Except.bind_eq_ok] at h; obtain ⟨⟨t, items⟩, h1, h⟩ := h
  dsimp only at h
  split at h
  · simp only [Except.pure_eq', Except.ok.injEq] at h; exact absurd h.symm hs
  · rename_i ht
    rw [Except.bind_eq_ok] at h; obtain ⟨bm, h2, h⟩ := h
    rw [Except.bind_eq_ok] at h; obtain ⟨msg, h3, h⟩ := h
    rw [Except.bind_eq_ok] at h; obtain ⟨out, h4, h⟩ := h
    refine ⟨t, items, bm, msg, out, h1, ht, getI_eq_ok.1 h2, h3, h4, ?_⟩
    split at h
    · rename_i hc
      left
      rw [Except.bind_eq_ok] at h; obtain ⟨⟨st', sh'⟩, h5, h⟩ := h
      dsimp only at h
      rw [Except.bind_eq_ok] at h; obtain ⟨bs, h6, h⟩ := h
      rw [Except.bind_eq_ok] at h; obtain ⟨peer, h7, h⟩ := h
      rw [Except.bind_eq_ok] at h; obtain ⟨a', h8, h⟩ := h
      refine ⟨hc.1, hc.2, st', sh', bs, peer, a', ?_, getI_eq_ok.1 h6, h7, h8, ?_⟩
      · cases out with
        | cont x y => simpa [unpack] using h5
        | out o => simp [unpack] at h5
      · cases isLeader <;> simpa using h
    · right
      split at h
      · rename_i hc
        simp only [Except.pure_eq', Except.ok.injEq] at h
        exact ⟨hc.1, hc.2, h.symm⟩
      · simp only [Except.pure_eq', Except.ok.injEq] at h; exact absurd h.symm hs

/-! ## Safety -/

section
variable (V)
/-- What holds of the state of Aggregator `j` -/
def Inv (k c : Bytes) (a : AggParam) (n : Bytes) (p : PubShare) (j : ℕ) (i : InShare)
    (s : PingPongState VState VShare OutShare) : Prop :=
  match s with
  | .continued st r _ => ∃ sh, Spec.Held V k c a n p j i r st sh
  | .finished out => ∃ r st sh msg, r + 1 = V.rounds ∧ Spec.Held V k c a n p j i r st sh ∧
      V.verifyNext c st msg = .ok out
  | .finishedWithOutbound out _ => ∃ r st sh msg, r + 1 = V.rounds ∧ Spec.Held V k c a n p j i r st sh ∧
      V.verifyNext c st msg = .ok out
  | _ => True
end

theorem inv_transition {k c : Bytes} {a : AggParam} {n : Bytes} {p : PubShare} {j : ℕ} {i : InShare} {r : ℕ}
    {st : VState} {sh : VShare} (h : Spec.Held V k c a n p j i r st sh) {a' : AggParam} {shs : List VShare}
    {s : PingPongState VState VShare OutShare} (hs : transition V c a' shs st r = .ok s) :
    Inv V k c a n p j i s := by
  obtain ⟨msg, bm, out, h1, h2, h3, h4⟩ := transition_ok hs
  rcases h4 with ⟨hr, b, hb, rfl⟩ | ⟨hr, st', sh', bs, b, rfl, hbs, hb, rfl⟩
  · exact ⟨r, st, sh, msg, hr, h, h3⟩
  · exact ⟨sh', h.next h3⟩

theorem inv_continued {k c : Bytes} {a : AggParam} {n : Bytes} {p : PubShare} {j : ℕ} {i : InShare} {r : ℕ}
    {st : VState} {b : Bytes} (h : Inv V k c a n p j i (.continued st r b)) {isLeader : Bool} {a' m : Bytes}
    {s : PingPongState VState VShare OutShare} (hs : continued V isLeader c a' st r m = .ok s) :
    Inv V k c a n p j i s := by
  by_cases hne : s = .rejected
  · subst hne; exact trivial
  obtain ⟨sh, h⟩ := h
  obtain ⟨t, items, bm, msg, out, h1, h2, h3, h4, h5, h6⟩ := continued_ok hs hne
  rcases h6 with ⟨hr, ht, st', sh', bs, peer, a'', rfl, _, _, _, h7⟩ | ⟨hr, ht, rfl⟩
  · exact inv_transition (h.next h5) h7
  · exact ⟨r, st, sh, msg, hr, h, h5⟩

theorem inv_receive {k c : Bytes} {a : AggParam} {n : Bytes} {p : PubShare} {j : ℕ} {i : InShare}
    (isLeader : Bool) {a' : Bytes} (ms : List Bytes)
    {s s' : PingPongState VState VShare OutShare} (h : Inv V k c a n p j i s)
    (hs : Spec.receive V isLeader c a' s ms = .ok s') : Inv V k c a n p j i s' := by
  induction ms generalizing s with
  | nil =>
    unfold Spec.receive at hs
    simp only [Except.ok.injEq] at hs
    subst hs; exact h
  | cons m ms ih =>
    cases s with
    | continued st r b =>
      unfold Spec.receive at hs
      rw [Except.bind_eq_ok] at hs
      obtain ⟨s1, h1, h2⟩ := hs
      refine ih (inv_continued (isLeader := isLeader) h (s := s1) (a' := a') (m := m) ?_) h2
      cases isLeader
      · simpa [helperContinued] using h1
      · simpa [leaderContinued] using h1
    | _ =>
      unfold Spec.receive at hs
      simp only [Except.ok.injEq] at hs
      subst hs; exact h

theorem receive_ok_or_fuel (isLeader : Bool) (c a : Bytes) (ms : List Bytes)
    (s : PingPongState VState VShare OutShare) :
    (∃ s', Spec.receive V isLeader c a s ms = .ok s') ∨ Spec.receive V isLeader c a s ms = .error .fuel := by
  induction ms generalizing s with
  | nil => left; exact ⟨s, rfl⟩
  | cons m ms ih =>
    cases s with
    | continued st r b =>
      unfold Spec.receive
      have : ∀ q, (∃ s', continued V q c a st r m = .ok s') ∨ continued V q c a st r m = .error .fuel := by
        intro q
        unfold continued
        rcases catchAll_cases (x := _) with h | ⟨h, _⟩
        · exact .inl h
        · exact .inr h
      unfold leaderContinued helperContinued
      rcases this isLeader with ⟨s', h⟩ | h
      · cases isLeader
        · simp only [Bool.false_eq_true, if_false, h, Except.ok_bind']; exact ih _
        · simp only [if_true, h, Except.ok_bind']; exact ih _
      · right
        cases isLeader
        · simp [h]
        · simp [h]
    | _ => left; exact ⟨_, rfl⟩

theorem receive_ne_fuel (hT : Spec.Terminates V) (isLeader : Bool) (c a : Bytes) (ms : List Bytes)
    (s : PingPongState VState VShare OutShare) : Spec.receive V isLeader c a s ms ≠ .error .fuel := by
  induction ms generalizing s with
  | nil => simp [Spec.receive]
  | cons m ms ih =>
    cases s with
    | continued st r b =>
      unfold Spec.receive
      refine bind_ne_fuel ?_ fun s => ih s
      split
      · exact continued_ne_fuel hT _ _ _ _ _ _
      · exact continued_ne_fuel hT _ _ _ _ _ _
    | _ => simp [Spec.receive]

end Vdaf.PingPong
