import Verif.Model.Value
import Verif.Spec.Chunks
import Verif.Lemmas.Iter
import Verif.Props.Types
import Mathlib.Tactic.Ring
import Mathlib.Tactic.Linarith
import Mathlib.Data.List.Pairwise

set_option autoImplicit false

/-!
# C12: serialisation of values
-/

namespace Spu.Props

open Spu.Model Spu.Spec

/-- position and bytes of a chunk -/
def piece (c : Chunk) : ℕ × Bytes := (c.offset, c.content)

/-! ## Cutting -/

theorem mapM_ok {α β : Type} (f : α → Except Err β) (g : α → β) (l : List α) (h : ∀ x ∈ l, f x = .ok (g x)) :
    l.mapM f = .ok (l.map g) := by
  induction l with
  | nil => rfl
  | cons a l ih =>
    rw [List.mapM_cons, h a (by simp), ih (fun x hx => h x (by simp [hx]))]
    rfl

/-- chunk number `i` of `size` bytes -/
def cutChunk (mem : Bytes) (size max i : ℕ) : Chunk := ⟨size, i * max, (mem.drop (i * max)).take (min max (size - i * max))⟩

theorem chunk_start_lt {size max i : ℕ} (hm : 0 < max) (hi : i < (size + max - 1) / max) : i * max < size := by
  have h1 : (i + 1) * max ≤ size + max - 1 := (Nat.le_div_iff_mul_le hm).1 hi
  have h2 : (i + 1) * max = i * max + max := by ring
  omega

theorem buildChunks_ok (mem : Bytes) (size max : ℕ) (hm : 0 < max) (hs : size ≤ mem.length) (hw : size + max ≤ 2 ^ 64) :
    buildChunks mem size ((size + max - 1) % 2 ^ 64 / max) max =
      .ok ((List.range ((size + max - 1) / max)).map (cutChunk mem size max)) := by
  have hmod : (size + max - 1) % 2 ^ 64 = size + max - 1 := Nat.mod_eq_of_lt (by omega)
  unfold buildChunks
  rw [hmod]
  split_ifs with h0
  · have : (size + max - 1) / max = 0 := Nat.div_eq_of_lt (by omega)
    rw [this]; rfl
  · refine mapM_ok _ _ _ fun i hi => ?_
    have hlt := chunk_start_lt hm (List.mem_range.1 hi)
    have e1 : i * max % 2 ^ 64 = i * max := Nat.mod_eq_of_lt (by omega)
    have e2 : (size + (2 ^ 64 - i * max)) % 2 ^ 64 = size - i * max := by
      have : size + (2 ^ 64 - i * max) = (size - i * max) + 2 ^ 64 := by omega
      rw [this, Nat.add_mod_right, Nat.mod_eq_of_lt (by omega)]
    unfold buildOne
    simp only [e1, e2]
    rw [if_neg (by omega), if_pos (by omega)]
    rfl

theorem cutChunk_tiles (mem : Bytes) (size max : ℕ) (hm : 0 < max) (hs : size ≤ mem.length) :
    ∀ d j, j + d = (size + max - 1) / max → ∀ st, (0 < d → st = j * max) →
      Tiles st (((List.range' j d).map (cutChunk mem size max)).map piece) ((mem.take size).drop (j * max)) := by
  intro d
  induction d with
  | zero =>
    intro j hj st _
    have h1 : size + max - 1 < (j + 1) * max := by
      rw [← Nat.div_lt_iff_lt_mul hm]; omega
    have h2 : (j + 1) * max = j * max + max := by ring
    simp only [List.range'_zero, List.map_nil, Tiles]
    rw [List.drop_eq_nil_iff, List.length_take]
    omega
  | succ d ih =>
    intro j hj st hst
    have hlt : j * max < size := chunk_start_lt hm (by omega)
    have e : (cutChunk mem size max j).content = ((mem.take size).drop (j * max)).take max := by
      unfold cutChunk
      simp only
      rw [List.drop_take, List.take_take]
    refine ⟨(hst (by omega)).symm, (mem.take size).drop ((j + 1) * max), ?_, ?_⟩
    · have h2 : (j + 1) * max = j * max + max := by ring
      rw [h2, ← List.drop_drop]
      simp only [piece]
      rw [e, List.take_append_drop]
    · refine ih (j + 1) (by omega) _ fun hd => ?_
      have hlt2 : (j + 1) * max < size := chunk_start_lt hm (by omega)
      have h2 : (j + 1) * max = j * max + max := by ring
      rw [hst (by omega)]
      simp only [piece]
      rw [e, List.length_take, List.length_drop, List.length_take]
      omega

theorem cutChunk_sorted (mem : Bytes) (size max n : ℕ) (hm : 0 < max) :
    ((List.range n).map (cutChunk mem size max)).Pairwise (fun a b => a.offset < b.offset) := by
  rw [List.pairwise_map]
  refine List.pairwise_lt_range.imp fun {a b} h => ?_
  exact Nat.mul_lt_mul_of_pos_right h hm

/-! ## Ordering -/

theorem insertChunk_none (c : Chunk) (m : List Chunk) (hs : m.Pairwise (fun a b => a.offset < b.offset)) :
    insertChunk c m = none ↔ c.offset ∈ m.map Chunk.offset := by
  induction m with
  | nil => simp [insertChunk]
  | cons d ds ih =>
    have hd := List.pairwise_cons.1 hs
    unfold insertChunk
    split_ifs with h1 h2
    · simp [h1]
    · simp only [reduceCtorEq, List.map_cons, List.mem_cons, false_iff, not_or]
      refine ⟨h1, fun hm => ?_⟩
      obtain ⟨x, hx, hxo⟩ := List.mem_map.1 hm
      have := hd.1 x hx
      omega
    · rw [Option.map_eq_none_iff, ih hd.2]
      simp [h1]

theorem insertChunk_some (c : Chunk) (m m' : List Chunk) (hs : m.Pairwise (fun a b => a.offset < b.offset))
    (h : insertChunk c m = some m') : m'.Perm (c :: m) ∧ m'.Pairwise (fun a b => a.offset < b.offset) := by
  induction m generalizing m' with
  | nil => simp [insertChunk] at h; subst h; simp
  | cons d ds ih =>
    have hd := List.pairwise_cons.1 hs
    unfold insertChunk at h
    split_ifs at h with h1 h2
    · injection h with h; subst h
      refine ⟨List.Perm.refl _, List.pairwise_cons.2 ⟨?_, hs⟩⟩
      intro x hx
      rcases List.mem_cons.1 hx with rfl | hx
      · exact h2
      · have := hd.1 x hx; omega
    · obtain ⟨n, hn, he⟩ := Option.map_eq_some_iff.1 h
      obtain ⟨hp, hq⟩ := ih n hd.2 hn
      subst he
      refine ⟨(hp.cons d).trans (List.Perm.swap c d ds), List.pairwise_cons.2 ⟨?_, hq⟩⟩
      intro x hx
      rcases List.mem_cons.1 (hp.subset hx) with rfl | hx
      · omega
      · exact hd.1 x hx

theorem orderFold (cs : List Chunk) : ∀ m m' : List Chunk, m.Pairwise (fun a b => a.offset < b.offset) →
    cs.foldlM (fun m c => insertChunk c m) m = some m' →
    m'.Perm (cs ++ m) ∧ m'.Pairwise (fun a b => a.offset < b.offset) := by
  induction cs with
  | nil => intro m m' hs h; simp at h; subst h; exact ⟨List.Perm.refl _, hs⟩
  | cons c cs ih =>
    intro m m' hs h
    rw [List.foldlM_cons] at h
    obtain ⟨n, hn, h⟩ := Option.bind_eq_some_iff.1 h
    obtain ⟨p1, s1⟩ := insertChunk_some c m n hs hn
    obtain ⟨p2, s2⟩ := ih n m' s1 h
    refine ⟨p2.trans ((p1.append_left cs).trans ?_), s2⟩
    exact List.perm_middle

theorem orderChunks_some (cs m : List Chunk) (h : orderChunks cs = some m) :
    m.Perm cs ∧ m.Pairwise (fun a b => a.offset < b.offset) := by
  have := orderFold cs [] m List.Pairwise.nil h
  simpa using this

theorem orderFold_isSome (cs : List Chunk) : ∀ m : List Chunk, m.Pairwise (fun a b => a.offset < b.offset) →
    ((cs ++ m).map Chunk.offset).Nodup → (cs.foldlM (fun m c => insertChunk c m) m).isSome := by
  induction cs with
  | nil => intro m _ _; simp
  | cons c cs ih =>
    intro m hs hn
    rw [List.foldlM_cons]
    cases hi : insertChunk c m with
    | none =>
      exfalso
      have := (insertChunk_none c m hs).1 hi
      simp only [List.cons_append, List.map_cons, List.nodup_cons, List.map_append, List.mem_append, not_or] at hn
      exact hn.1.2 this
    | some n =>
      obtain ⟨p1, s1⟩ := insertChunk_some c m n hs hi
      refine ih n s1 ?_
      have hp : (cs ++ n).Perm (c :: cs ++ m) := (p1.append_left cs).trans List.perm_middle
      exact (hp.map _).nodup_iff.2 hn

theorem orderChunks_perm (cs l : List Chunk) (hl : l.Pairwise (fun a b => a.offset < b.offset)) (hp : cs.Perm l) :
    orderChunks cs = some l := by
  have hn : (cs.map Chunk.offset).Nodup := by
    refine (hp.map _).nodup_iff.2 ?_
    rw [List.Nodup, List.pairwise_map]
    exact hl.imp fun {a b} h => by omega
  have hs := orderFold_isSome cs [] List.Pairwise.nil (by simpa using hn)
  obtain ⟨m, hm⟩ := Option.isSome_iff_exists.1 hs
  obtain ⟨p, s⟩ := orderChunks_some cs m hm
  have : m = l := List.Perm.eq_of_pairwise (fun a b _ _ h1 h2 => by omega) s hl (p.trans hp)
  rw [← this]
  exact hm

/-! ## Filling -/

theorem fillLoop_tiles (cs : List Chunk) : ∀ (buf b : Bytes) (e : ℕ), Tiles e (cs.map piece) b →
    e + b.length ≤ buf.length → fillLoop cs buf e = .ok (buf.take e ++ b ++ buf.drop (e + b.length), e + b.length) := by
  induction cs with
  | nil =>
    intro buf b e ht _
    simp only [List.map_nil, Tiles] at ht
    subst ht
    simp [fillLoop]
  | cons c cs ih =>
    intro buf b e ht hl
    obtain ⟨h1, r, h2, h3⟩ := ht
    simp only [piece] at h1 h2 h3
    subst h2
    rw [List.length_append] at hl
    unfold fillLoop
    rw [if_neg (not_not.2 h1)]
    have hm : memcpyTo buf c.offset c.content = .ok (buf.take e ++ c.content ++ buf.drop (e + c.content.length)) := by
      unfold memcpyTo
      rw [h1, if_pos (by omega)]
    rw [hm]
    have hlen : (buf.take e ++ c.content ++ buf.drop (e + c.content.length)).length = buf.length := by
      simp only [List.length_append, List.length_take, List.length_drop]; omega
    have := ih (buf.take e ++ c.content ++ buf.drop (e + c.content.length)) r (e + c.content.length) h3
      (by rw [hlen]; omega)
    have htl : (buf.take e ++ c.content).length = e + c.content.length := by
      rw [List.length_append, List.length_take]; omega
    have e1 : (buf.take e ++ c.content ++ buf.drop (e + c.content.length)).take (e + c.content.length) =
        buf.take e ++ c.content := by
      rw [← htl, List.take_left']
      rfl
    have e2 : (buf.take e ++ c.content ++ buf.drop (e + c.content.length)).drop (e + c.content.length + r.length) =
        buf.drop (e + (c.content ++ r).length) := by
      rw [← List.drop_drop]
      have : (buf.take e ++ c.content ++ buf.drop (e + c.content.length)).drop (e + c.content.length) =
          buf.drop (e + c.content.length) := by
        rw [← htl, List.drop_left']
        rfl
      rw [this, List.drop_drop, List.length_append, Nat.add_assoc]
    show fillLoop cs _ _ = _
    rw [this, e1, e2, List.length_append]
    simp [List.append_assoc, Nat.add_assoc]

theorem fillLoop_ok (cs : List Chunk) : ∀ (buf : Bytes) (e : ℕ) (r : Bytes × ℕ), e ≤ buf.length → fillLoop cs buf e = .ok r →
    ∃ b, Tiles e (cs.map piece) b ∧ e + b.length ≤ buf.length := by
  induction cs with
  | nil => intro buf e r he _; exact ⟨[], rfl, by simpa using he⟩
  | cons c cs ih =>
    intro buf e r he h
    unfold fillLoop at h
    split_ifs at h with h1
    have h1 : c.offset = e := by omega
    unfold memcpyTo at h
    split_ifs at h with h2
    · have h' : fillLoop cs (buf.take c.offset ++ c.content ++ buf.drop (c.offset + c.content.length))
          (e + c.content.length) = .ok r := h
      have hlen : (buf.take c.offset ++ c.content ++ buf.drop (c.offset + c.content.length)).length = buf.length := by
        simp only [List.length_append, List.length_take, List.length_drop]; omega
      obtain ⟨b, hb, hbl⟩ := ih _ _ r (by rw [hlen]; omega) h'
      rw [hlen] at hbl
      exact ⟨c.content ++ b, ⟨h1, b, rfl, hb⟩, by rw [List.length_append]; omega⟩
    · cases h

theorem fillLoop_safe (cs : List Chunk) : ∀ (buf : Bytes) (e : ℕ), e + totalLen (cs.map piece) ≤ buf.length →
    fillLoop cs buf e ≠ .error .ub := by
  induction cs with
  | nil => intro buf e _ h; cases h
  | cons c cs ih =>
    intro buf e hl h
    simp only [List.map_cons, totalLen, piece] at hl
    unfold fillLoop at h
    split_ifs at h with h1
    · cases h
    · have h1 : c.offset = e := by omega
      unfold memcpyTo at h
      rw [if_pos (by omega)] at h
      refine ih _ _ ?_ h
      simp only [List.length_append, List.length_take, List.length_drop]
      omega

theorem totalLen_perm {β : Type} {l m : List (ℕ × List β)} (h : l.Perm m) : totalLen l = totalLen m := by
  induction h with
  | nil => rfl
  | cons _ _ ih => simp only [totalLen, ih]
  | swap => simp only [totalLen]; omega
  | trans _ _ h1 h2 => exact h1.trans h2

/-! ## Elements -/

theorem elemAt_flatten (es : ℕ) (xs : List Bytes) (h : ∀ x ∈ xs, x.length = es) (p : ℕ) (hp : p < xs.length) :
    elemAt es xs.flatten p = xs[p]? := by
  have hlen : ∀ l : List Bytes, (∀ x ∈ l, x.length = es) → l.flatten.length = l.length * es := by
    intro l hl
    induction l with
    | nil => simp
    | cons a l ih =>
      rw [List.flatten_cons, List.length_append, hl a (by simp), ih (fun x hx => hl x (by simp [hx])), List.length_cons]
      ring
  unfold elemAt
  rw [hlen xs h, if_pos (Nat.mul_le_mul_right es hp)]
  have hsplit : xs.flatten = (xs.take p).flatten ++ (xs[p] ++ (xs.drop (p + 1)).flatten) := by
    rw [← List.flatten_cons, ← List.drop_eq_getElem_cons hp, ← List.flatten_append, List.take_append_drop]
  have hl1 : (xs.take p).flatten.length = p * es := by
    rw [hlen _ (fun x hx => h x (List.mem_of_mem_take hx)), List.length_take]
    congr 1; omega
  rw [hsplit, ← hl1, List.drop_left', List.getElem?_eq_getElem hp]
  · rw [← h xs[p] (List.getElem_mem hp), List.take_left']
    rfl
  · rfl

/-- The arrays a program can hold: the layout stays in the buffer and every element has the size of the element type. -/
def NdVal.Ok (a : NdVal) : Prop := a.view.Valid a.buf ∧ ∀ x ∈ a.buf, x.length = elsize a.ty

theorem flatten_length (es : ℕ) (l : List Bytes) (h : ∀ x ∈ l, x.length = es) : l.flatten.length = l.length * es := by
  induction l with
  | nil => simp
  | cons a l ih =>
    rw [List.flatten_cons, List.length_append, h a (by simp), ih (fun x hx => h x (by simp [hx])), List.length_cons]
    ring

/-- the elements of an array in row-major order, and what `array_to_chunks` cuts -/
theorem arrayToChunks_spec (a : NdVal) (h : NdVal.Ok a) (num max : ℕ) (hfit : size a.view.shape * elsize a.ty < 2 ^ 64) :
    ∃ (xs : List Bytes) (mem : Bytes), xs.length = size a.view.shape ∧ (∀ x ∈ xs, x.length = elsize a.ty) ∧
      (∀ idx, InB idx a.view.shape → a.view.get a.buf idx = xs[pos idx a.view.shape]?) ∧
      size a.view.shape * elsize a.ty ≤ mem.length ∧ mem.take (size a.view.shape * elsize a.ty) = xs.flatten ∧
      arrayToChunks (size a.view.shape) num max a = buildChunks mem (size a.view.shape * elsize a.ty) num max := by
  obtain ⟨hv, hel⟩ := h
  unfold arrayToChunks
  rw [Nat.mod_eq_of_lt hfit]
  split_ifs with hc
  · rcases Nat.eq_zero_or_pos (size a.view.shape) with h0 | hp
    · refine ⟨[], a.mem, by rw [h0]; rfl, by simp, fun idx hi => ?_, by rw [h0]; omega, by rw [h0]; simp, rfl⟩
      have := size_pos_of_InB hi; omega
    · -- every position is an element of the buffer
      have hget : ∀ idx, InB idx a.view.shape → a.view.get a.buf idx = rd a.buf (a.view.offset + pos idx a.view.shape) := by
        intro idx hi
        unfold View.isCompact at hc
        rw [Bool.or_eq_true, decide_eq_true_eq, decide_eq_true_eq] at hc
        rw [View.get, addr_eq hv.1]
        rcases hc with hc | hc
        · rw [numel_eq_size] at hc
          have h1 : size a.view.shape = 1 := by omega
          have h2 : pos idx a.view.shape = 0 := by have := pos_lt_size hi; omega
          have h3 : idx = List.replicate a.view.shape.length 0 :=
            pos_inj hi (InB_zeros hp) (by rw [h2, pos_zeros])
          rw [h2, h3, strideDot_zeros]; rfl
        · rw [hc, strideDot_compact hi]
      have hoff : 0 ≤ a.view.offset := by
        obtain ⟨x, hx⟩ := hv.2 _ (InB_zeros hp)
        rw [hget _ (InB_zeros hp), pos_zeros] at hx
        unfold rd at hx
        split_ifs at hx with h; simp at h; omega
      have hbound : a.view.offset.toNat + size a.view.shape ≤ a.buf.size := by
        obtain ⟨idx, hi, he⟩ := exists_InB (sh := a.view.shape) (p := size a.view.shape - 1) (by omega)
        obtain ⟨x, hx⟩ := hv.2 idx hi
        rw [hget idx hi, he] at hx
        unfold rd at hx
        split_ifs at hx with h
        have := (Array.getElem?_eq_some_iff.1 hx).1
        omega
      have hmem : a.mem = (a.buf.toList.drop a.view.offset.toNat).flatten := by
        unfold NdVal.mem; rw [if_neg (by omega)]
      have hall : ∀ x ∈ a.buf.toList.drop a.view.offset.toNat, x.length = elsize a.ty :=
        fun x hx => hel x (by simpa using List.mem_of_mem_drop hx)
      refine ⟨(a.buf.toList.drop a.view.offset.toNat).take (size a.view.shape), a.mem, ?_, ?_, ?_, ?_, ?_, rfl⟩
      · rw [List.length_take, List.length_drop, Array.length_toList]; omega
      · exact fun x hx => hall x (List.mem_of_mem_take hx)
      · intro idx hi
        rw [hget idx hi]
        unfold rd
        rw [if_neg (by omega), List.getElem?_take, if_pos (pos_lt_size hi), List.getElem?_drop, Array.getElem?_toList]
        congr 1; omega
      · rw [hmem, flatten_length _ _ hall, List.length_drop, Array.length_toList]
        exact Nat.mul_le_mul_right _ (by omega)
      · rw [hmem]
        conv_lhs => rw [← List.take_append_drop (size a.view.shape) (a.buf.toList.drop a.view.offset.toNat)]
        rw [List.flatten_append]
        refine List.take_left' ?_
        rw [flatten_length _ _ (fun x hx => hall x (List.mem_of_mem_take hx)), List.length_take, List.length_drop,
          Array.length_toList]
        congr 1; omega
  · obtain ⟨it, xs, h1, h2, h3, h4⟩ := readAll_spec hv
    have hcl : a.view.clone a.buf = some (xs.toArray, ⟨a.view.shape, makeCompactStrides a.view.shape, 0⟩) := by
      simp [View.clone, h1, h2]
    have hxs : ∀ x ∈ xs, x.length = elsize a.ty := by
      intro x hx
      obtain ⟨p, hp, he⟩ := List.mem_iff_getElem.1 hx
      obtain ⟨idx, hi, hpos⟩ := exists_InB (sh := a.view.shape) (p := p) (by omega)
      have := h4 idx hi
      rw [hpos, List.getElem?_eq_getElem hp, he] at this
      unfold View.get rd at this
      split_ifs at this
      exact hel x (Array.mem_of_getElem? this)
    refine ⟨xs, xs.flatten, h3, hxs, h4, ?_, ?_, ?_⟩
    · rw [flatten_length _ _ hxs, h3]
    · rw [List.take_of_length_le]; rw [flatten_length _ _ hxs, h3]
    · rw [hcl]
      simp only
      rw [if_pos (by simp [View.isCompact]), flatten_length _ _ hxs, h3]

/-! ## Reading -/

theorem numel64_ok (sh : Shape) (h : ∀ k, size (sh.take k) < 2 ^ 63) : numel64 sh = .ok (size sh) := by
  have key : ∀ (l : Shape) (a : ℕ), (∀ k, a * size (l.take k) < 2 ^ 63) →
      l.foldlM (m := Except Err) (fun a d => if a * d < 2 ^ 63 then .ok (a * d) else .error .ub) a = .ok (a * size l) := by
    intro l
    induction l with
    | nil => intro a _; simp [size]; rfl
    | cons d ds ih =>
      intro a ha
      have h1 := ha 1
      simp only [List.take_succ_cons, List.take_zero, size, Nat.mul_one] at h1
      rw [List.foldlM_cons, if_pos h1]
      show List.foldlM _ (a * d) ds = _
      rw [ih (a * d) fun k => ?_]
      · simp only [size]; rw [Nat.mul_assoc]
      · have := ha (k + 1)
        simp only [List.take_succ_cons, size] at this
        rw [Nat.mul_assoc]; exact this
  have := key sh 1 (by simpa using h)
  simpa [numel64] using this

theorem numel64_eq (sh : Shape) (n : ℕ) (h : numel64 sh = .ok n) : n = size sh := by
  have key : ∀ (l : Shape) (a n : ℕ),
      l.foldlM (m := Except Err) (fun a d => if a * d < 2 ^ 63 then .ok (a * d) else .error .ub) a = .ok n → n = a * size l := by
    intro l
    induction l with
    | nil => intro a n h; injection h with h; simp [size, h]
    | cons d ds ih =>
      intro a n h
      rw [List.foldlM_cons] at h
      split_ifs at h with h1
      · have := ih (a * d) n h
        rw [this, size, Nat.mul_assoc]
      · cases h
  have := key sh 1 n h
  simpa using this

/-- the byte count the first chunk declares -/
def declared (cs : List Chunk) : ℕ := (cs.head?.map Chunk.totalBytes).getD 0

theorem fromProtoReal_tiles (m : Ty.Ctx) (junk : ℕ → UInt8) (p : ValueProto) (t : Ty.Ty) (l : List Chunk) (b : Bytes)
    (ht : Ty.fromString m p.meta.storageType = some t) (hd : p.meta.dataType ≠ 0) (hv : p.meta.visibility = visOf t)
    (hn : numel64 p.meta.shape = .ok (size p.meta.shape)) (hf : size p.meta.shape * elsize t < 2 ^ 64)
    (ho : orderChunks p.chunks = some l) (hb : Tiles 0 (l.map piece) b) (hl : b.length = size p.meta.shape * elsize t)
    (hdec : declared p.chunks = b.length) :
    fromProtoReal m junk p = .ok ⟨t, p.meta.shape, b, none, p.meta.dataType⟩ := by
  have hlen : ((List.range (size p.meta.shape * elsize t % 2 ^ 64)).map junk).length = b.length := by
    rw [List.length_map, List.length_range, Nat.mod_eq_of_lt hf, hl]
  have hfill := fillLoop_tiles l ((List.range (size p.meta.shape * elsize t % 2 ^ 64)).map junk) b 0 hb (by rw [hlen]; omega)
  unfold fromProtoReal
  rw [ht]
  simp only
  rw [if_neg hd, if_neg (not_not.2 hv), ho, hn]
  simp only [bind, Except.bind]
  unfold declared at hdec
  rw [hdec, if_neg (not_not.2 hlen), hfill]
  simp only [Nat.zero_add]
  rw [if_neg (not_not.2 rfl)]
  have : List.drop b.length ((List.range (size p.meta.shape * elsize t % 2 ^ 64)).map junk) = [] := by
    rw [List.drop_eq_nil_iff, hlen]
  rw [this, List.take_zero, List.nil_append, List.append_nil]

/-- The values a program can hold: both parts are sound arrays of one type and shape, the element count fits the machine
    integer at every step of its computation, the byte count fits `size_t`, and the value is not of an invalid type. -/
structure Val.Ok (v : Val) : Prop where
  data : NdVal.Ok v.data
  imag : ∀ a, v.imag = some a → NdVal.Ok a ∧ a.ty = v.data.ty ∧ a.view.shape = v.data.view.shape
  dtype : v.dtype ≠ 0
  vis : visOf v.data.ty ≠ .invalid
  count : ∀ k, size (v.data.view.shape.take k) < 2 ^ 63

/-- bytes of one part of a value -/
def _root_.Spu.Model.Val.bytes (v : Val) : ℕ := size v.data.view.shape * elsize v.data.ty

/-- The bytes `b`, read as a row-major array, hold the same elements as the array `a`. -/
def SameElems (a : NdVal) (b : Bytes) : Prop :=
  b.length = size a.view.shape * elsize a.ty ∧
  ∀ idx, InB idx a.view.shape → elemAt (elsize a.ty) b (pos idx a.view.shape) = a.view.get a.buf idx

/-- What was read is the value that was written. -/
def SameVal (v : Val) (t : Ty.Ty) (r : Read) : Prop :=
  r.ty = t ∧ r.shape = v.data.view.shape ∧ r.dtype = v.dtype ∧ SameElems v.data r.bytes ∧
  match v.imag, r.imag with
  | none, none => True
  | some a, some b => SameElems a b
  | _, _ => False

/-- one part: the chunks written, and the bytes any arrangement of them is read as -/
theorem part_spec (a : NdVal) (h : NdVal.Ok a) (max : ℕ) (hm : 0 < max) (hw : size a.view.shape * elsize a.ty + max ≤ 2 ^ 64) :
    ∃ cs b, arrayToChunks (size a.view.shape) (chunksCount (size a.view.shape) (elsize a.ty) max) max a = .ok cs ∧
      SameElems a b ∧ (∀ c ∈ cs, c.totalBytes = b.length ∧ 0 < c.content.length ∧ c.content.length ≤ max) ∧
      cs.length = (b.length + max - 1) / max ∧
      ∀ cs', cs'.Perm cs → ∃ l, orderChunks cs' = some l ∧ Tiles 0 (l.map piece) b ∧ declared cs' = b.length := by
  have hfit : size a.view.shape * elsize a.ty < 2 ^ 64 := by omega
  obtain ⟨xs, mem, h1, h2, h3, h4, h5, h6⟩ :=
    arrayToChunks_spec a h (chunksCount (size a.view.shape) (elsize a.ty) max) max hfit
  have hbl : xs.flatten.length = size a.view.shape * elsize a.ty := by rw [flatten_length _ _ h2, h1]
  refine ⟨(List.range ((size a.view.shape * elsize a.ty + max - 1) / max)).map
    (cutChunk mem (size a.view.shape * elsize a.ty) max), xs.flatten, ?_, ⟨hbl, fun idx hi => ?_⟩, ?_, ?_, ?_⟩
  · rw [h6]
    unfold chunksCount
    simp only
    rw [Nat.mod_eq_of_lt hfit]
    exact buildChunks_ok mem _ max hm h4 hw
  · rw [h3 idx hi]
    exact elemAt_flatten _ _ h2 _ (by rw [h1]; exact pos_lt_size hi)
  · intro c hc
    obtain ⟨i, hi, rfl⟩ := List.mem_map.1 hc
    have := chunk_start_lt hm (List.mem_range.1 hi)
    refine ⟨hbl.symm, ?_, ?_⟩
    · unfold cutChunk
      simp only [List.length_take, List.length_drop]
      omega
    · unfold cutChunk
      simp only [List.length_take, List.length_drop]
      omega
  · rw [List.length_map, List.length_range, hbl]
  · intro cs' hp
    refine ⟨_, orderChunks_perm cs' _ (cutChunk_sorted _ _ _ _ hm) hp, ?_, ?_⟩
    · have := cutChunk_tiles mem _ max hm h4 ((size a.view.shape * elsize a.ty + max - 1) / max) 0 (by omega) 0 (by simp)
      rw [← List.range_eq_range', h5] at this
      simpa using this
    · unfold declared
      cases cs' with
      | nil =>
        have : ((size a.view.shape * elsize a.ty + max - 1) / max) = 0 := by
          have := hp.length_eq
          simpa using this.symm
        have := (Nat.div_eq_zero_iff_lt hm).1 this
        rw [hbl]
        show 0 = _
        omega
      | cons c cs' =>
        obtain ⟨i, hi, rfl⟩ := List.mem_map.1 (hp.subset (List.mem_cons_self))
        simp [cutChunk, hbl]

/-- C12: a value of any layout, real or complex, is cutChunk into non-empty chunks of at most the given size, and reading the
    chunks back in any order (the chunks of the real part before those of the imaginary part) gives a value of the same type,
    shape and elements. -/
theorem c12_roundtrip (m : Ty.Ctx) (junk : ℕ → UInt8) (v : Val) (max : ℕ) (hv : Val.Ok v) (hm : 0 < max)
    (hw : v.bytes + max ≤ 2 ^ 64) (t : Ty.Ty) (ht : Ty.fromString m v.data.ty.str = some t)
    (hsz : t.size = v.data.ty.size) (hvis : visOf t = visOf v.data.ty) :
    ∃ mt re im, toProto max v = .ok ⟨mt, re ++ im⟩ ∧ (∀ c ∈ re ++ im, 0 < c.content.length ∧ c.content.length ≤ max) ∧
      ∀ re' im', re'.Perm re → im'.Perm im → ∃ r, fromProto m junk ⟨mt, re' ++ im'⟩ = .ok r ∧ SameVal v t r := by
  have hes : elsize t = elsize v.data.ty := by unfold elsize; rw [hsz]
  have hn := numel64_ok _ hv.count
  have hfit : size v.data.view.shape * elsize v.data.ty < 2 ^ 64 := by unfold Model.Val.bytes at hw; omega
  obtain ⟨re, b, r1, r2, r3, r4, r5⟩ := part_spec v.data hv.data max hm hw
  have hinv : ¬ (v.dtype = 0 ∨ visOf v.data.ty = .invalid) := by
    rintro (h | h)
    · exact hv.dtype h
    · exact hv.vis h
  cases him : v.imag with
  | none =>
    refine ⟨⟨v.dtype, false, visOf v.data.ty, v.data.view.shape, v.data.ty.str⟩, re, [], ?_, ?_, ?_⟩
    · unfold toProto toMeta
      simp only [if_neg (show max ≠ 0 by omega), if_neg hinv, hn, him, bind, Except.bind, r1]
      rfl
    · intro c hc
      rw [List.append_nil] at hc
      exact (r3 c hc).2
    · intro re' im' hp hp'
      obtain ⟨l, h1, h2, h3⟩ := r5 re' hp
      have hi : im' = [] := List.perm_nil.1 hp'
      subst hi
      rw [List.append_nil]
      refine ⟨⟨t, v.data.view.shape, b, none, v.dtype⟩, ?_, rfl, rfl, rfl, r2, ?_⟩
      · unfold fromProto
        simp only
        exact fromProtoReal_tiles m junk ⟨⟨v.dtype, false, visOf v.data.ty, v.data.view.shape, v.data.ty.str⟩, re'⟩ t l b ht hv.dtype
          hvis.symm hn (by rw [hes]; exact hfit) h1 h2 (by rw [hes]; exact r2.1) h3
      · rw [him]; trivial
  | some a =>
    obtain ⟨ha, hty, hsh⟩ := hv.imag a him
    obtain ⟨im, c, s1, s2, s3, s4, s5⟩ := part_spec a ha max hm (by rw [hty, hsh]; exact hw)
    rw [hty, hsh] at s1
    refine ⟨⟨v.dtype, true, visOf v.data.ty, v.data.view.shape, v.data.ty.str⟩, re, im, ?_, ?_, ?_⟩
    · unfold toProto toMeta
      simp only [if_neg (show max ≠ 0 by omega), if_neg hinv, hn, him, bind, Except.bind, r1, s1]
      rfl
    · intro x hx
      rcases List.mem_append.1 hx with hx | hx
      · exact (r3 x hx).2
      · exact (s3 x hx).2
    · intro re' im' hp hp'
      obtain ⟨l, h1, h2, h3⟩ := r5 re' hp
      obtain ⟨l', h1', h2', h3'⟩ := s5 im' hp'
      have hbc : c.length = b.length := by rw [s2.1, r2.1, hty, hsh]
      have hlen : im'.length = re'.length := by rw [hp.length_eq, hp'.length_eq, r4, s4, hbc]
      have hhalf : (re' ++ im').length / 2 = re'.length := by rw [List.length_append]; omega
      refine ⟨⟨t, v.data.view.shape, b, some c, v.dtype⟩, ?_, rfl, rfl, rfl, r2, ?_⟩
      · unfold fromProto
        simp only [hhalf, if_true]
        rw [List.take_left' rfl, List.drop_left' rfl, ← hlen, List.take_length]
        rw [fromProtoReal_tiles m junk ⟨⟨v.dtype, false, visOf v.data.ty, v.data.view.shape, v.data.ty.str⟩, re'⟩ t l b ht hv.dtype
          hvis.symm hn (by rw [hes]; exact hfit) h1 h2 (by rw [hes]; exact r2.1) h3]
        rw [fromProtoReal_tiles m junk ⟨⟨v.dtype, false, visOf v.data.ty, v.data.view.shape, v.data.ty.str⟩, im'⟩ t l' c ht hv.dtype
          hvis.symm hn (by rw [hes]; exact hfit) h1' h2' (by rw [hes, hbc]; exact r2.1) h3']
        simp only [bind, Except.bind]
        rw [if_pos]
        unfold Ty.Ty.eq
        cases t <;> simp [Ty.Ty.equals]
      · rw [him]; exact s2

/-- C12 for the types of the protocols: every registered type except aby3 `OShrTy` and the two spdz2k share types comes back
    as the very same type. -/
theorem c12_roundtrip_registered (ps : List Ty.Proto) (junk : ℕ → UInt8) (v : Val) (max : ℕ) (hv : Val.Ok v) (hm : 0 < max)
    (hw : v.bytes + max ≤ 2 ^ 64) (hr : Registered ps v.data.ty.kind) (htv : v.data.ty.Valid)
    (h1 : v.data.ty.kind ≠ .ring .aby3O) (h2 : v.data.ty.kind ≠ .spdz2kA) (h3 : v.data.ty.kind ≠ .spdz2kB) :
    ∃ mt re im, toProto max v = .ok ⟨mt, re ++ im⟩ ∧ (∀ c ∈ re ++ im, 0 < c.content.length ∧ c.content.length ≤ max) ∧
      ∀ re' im', re'.Perm re → im'.Perm im →
        ∃ r, fromProto (Ty.registry ps) junk ⟨mt, re' ++ im'⟩ = .ok r ∧ SameVal v v.data.ty r :=
  c12_roundtrip _ junk v max hv hm hw _ (c41_roundtrip_exact ps _ hr htv h1 h2 h3) rfl rfl

/-! ## Messages that do not come from the serialiser -/

theorem fromProtoReal_ok (m : Ty.Ctx) (junk : ℕ → UInt8) (p : ValueProto) (r : Read) (h : fromProtoReal m junk p = .ok r) :
    Ty.fromString m p.meta.storageType = some r.ty ∧ p.meta.dataType ≠ 0 ∧ p.meta.visibility = visOf r.ty ∧
    r.shape = p.meta.shape ∧ r.dtype = p.meta.dataType ∧ r.imag = none ∧
    r.bytes.length = size p.meta.shape * elsize r.ty % 2 ^ 64 ∧ declared p.chunks = r.bytes.length ∧
    ∃ cs : List Chunk, cs.Perm p.chunks ∧ Tiles 0 (cs.map piece) r.bytes := by
  unfold fromProtoReal at h
  cases ht : Ty.fromString m p.meta.storageType with
  | none => rw [ht] at h; cases h
  | some t =>
    rw [ht] at h
    simp only at h
    split_ifs at h with a1 a2
    cases ho : orderChunks p.chunks with
    | none => rw [ho] at h; cases h
    | some l =>
      rw [ho] at h
      simp only at h
      cases hn : numel64 p.meta.shape with
      | error e => rw [hn] at h; cases h
      | ok n =>
        rw [hn] at h
        simp only [bind, Except.bind] at h
        split_ifs at h with a3
        have a3 := not_not.1 a3
        cases hfl : fillLoop l ((List.range (n * elsize t % 2 ^ 64)).map junk) 0 with
        | error e => rw [hfl] at h; cases h
        | ok w =>
          rw [hfl] at h
          simp only at h
          split_ifs at h with a4
          have a4 := not_not.1 a4
          obtain ⟨b, hb, hbl⟩ := fillLoop_ok l _ 0 w (Nat.zero_le _) hfl
          have := fillLoop_tiles l _ b 0 hb hbl
          rw [hfl] at this
          injection this with this
          have hw2 : w.2 = b.length := by rw [this]; simp
          have hlen : ((List.range (n * elsize t % 2 ^ 64)).map junk).length = b.length := by
            rw [a3, ← hw2]; exact a4
          have hw1 : w.1 = b := by
            rw [this]
            have : List.drop b.length ((List.range (n * elsize t % 2 ^ 64)).map junk) = [] := by
              rw [List.drop_eq_nil_iff, hlen]
            rw [Nat.zero_add, this, List.take_zero, List.nil_append, List.append_nil]
          injection h with h
          subst h
          have hnn := numel64_eq _ _ hn
          refine ⟨rfl, a1, not_not.1 a2, rfl, rfl, rfl, ?_, ?_, l, (orderChunks_some _ _ ho).1, ?_⟩
          · simp only [hw1]
            rw [← hlen, hnn]; simp
          · simp only [hw1]
            rw [← hw2]; exact a4
          · simp only [hw1]; exact hb

/-- C12: a message for a real value is accepted only if its chunks, arranged by position, lie end to end and together fill
    the buffer exactly; the bytes of the result are those of the chunks. -/
theorem c12_accept (m : Ty.Ctx) (junk : ℕ → UInt8) (p : ValueProto) (r : Read) (hc : p.meta.isComplex = false)
    (h : fromProto m junk p = .ok r) :
    Ty.fromString m p.meta.storageType = some r.ty ∧ p.meta.dataType ≠ 0 ∧ p.meta.visibility = visOf r.ty ∧
    r.shape = p.meta.shape ∧ r.dtype = p.meta.dataType ∧ r.imag = none ∧
    r.bytes.length = size p.meta.shape * elsize r.ty % 2 ^ 64 ∧ declared p.chunks = r.bytes.length ∧
    ∃ cs : List Chunk, cs.Perm p.chunks ∧ Tiles 0 (cs.map piece) r.bytes := by
  unfold fromProto at h
  rw [hc] at h
  exact fromProtoReal_ok m junk p r h

theorem fromProtoReal_safe (m : Ty.Ctx) (junk : ℕ → UInt8) (p : ValueProto)
    (hs : ∀ k, size (p.meta.shape.take k) < 2 ^ 63) (hl : totalLen (p.chunks.map piece) ≤ declared p.chunks) :
    fromProtoReal m junk p ≠ .error .ub := by
  intro h
  unfold fromProtoReal at h
  cases ht : Ty.fromString m p.meta.storageType with
  | none => rw [ht] at h; cases h
  | some t =>
    rw [ht] at h
    simp only at h
    split_ifs at h with a1 a2
    · cases h
    · cases h
    cases ho : orderChunks p.chunks with
    | none => rw [ho] at h; cases h
    | some l =>
      rw [ho] at h
      simp only at h
      rw [numel64_ok _ hs] at h
      simp only [bind, Except.bind] at h
      split_ifs at h with a3
      · cases h
      have a3 := not_not.1 a3
      cases hfl : fillLoop l ((List.range (size p.meta.shape * elsize t % 2 ^ 64)).map junk) 0 with
      | error e =>
        have hsafe := fillLoop_safe l ((List.range (size p.meta.shape * elsize t % 2 ^ 64)).map junk) 0 (by
          rw [a3, totalLen_perm ((orderChunks_some _ _ ho).1.map piece)]
          unfold declared at hl
          omega)
        rw [hfl] at h hsafe
        simp only at h
        cases e
        · cases h
        · exact hsafe rfl
      | ok w =>
        rw [hfl] at h
        simp only at h
        split_ifs at h
        cases h

/-- C12: no memory outside the buffer is touched as long as the chunks of each part together are not longer than the first
    chunk of the part declares. -/
theorem c12_safe (m : Ty.Ctx) (junk : ℕ → UInt8) (p : ValueProto) (hs : ∀ k, size (p.meta.shape.take k) < 2 ^ 63)
    (hl : p.meta.isComplex = false → totalLen (p.chunks.map piece) ≤ declared p.chunks)
    (hr : p.meta.isComplex = true → totalLen ((p.chunks.take (p.chunks.length / 2)).map piece) ≤
      declared (p.chunks.take (p.chunks.length / 2)))
    (hi : p.meta.isComplex = true → totalLen (((p.chunks.drop (p.chunks.length / 2)).take (p.chunks.length / 2)).map piece) ≤
      declared ((p.chunks.drop (p.chunks.length / 2)).take (p.chunks.length / 2))) :
    fromProto m junk p ≠ .error .ub := by
  unfold fromProto
  cases hc : p.meta.isComplex with
  | false =>
    simp only [Bool.false_eq_true, if_false]
    exact fromProtoReal_safe m junk p hs (hl hc)
  | true =>
    simp only [if_true]
    have s1 := fromProtoReal_safe m junk ⟨{ p.meta with isComplex := false }, p.chunks.take (p.chunks.length / 2)⟩ hs (hr hc)
    have s2 := fromProtoReal_safe m junk
      ⟨{ p.meta with isComplex := false }, (p.chunks.drop (p.chunks.length / 2)).take (p.chunks.length / 2)⟩ hs (hi hc)
    cases e1 : fromProtoReal m junk ⟨{ p.meta with isComplex := false }, p.chunks.take (p.chunks.length / 2)⟩ with
    | error e =>
      rw [e1] at s1
      intro h
      simp only [bind, Except.bind] at h
      injection h with h
      exact s1 (by rw [h])
    | ok r =>
      cases e2 : fromProtoReal m junk
          ⟨{ p.meta with isComplex := false }, (p.chunks.drop (p.chunks.length / 2)).take (p.chunks.length / 2)⟩ with
      | error e =>
        rw [e2] at s2
        intro h
        simp only [bind, Except.bind] at h
        injection h with h
        exact s2 (by rw [h])
      | ok r =>
        intro h
        simp only [bind, Except.bind] at h
        split_ifs at h
        cases h

/-- C12: a message whose first chunk declares another size than type and shape require is rejected. -/
theorem c12_wrong_total (m : Ty.Ctx) (junk : ℕ → UInt8) (p : ValueProto) (hc : p.meta.isComplex = false)
    (hs : ∀ k, size (p.meta.shape.take k) < 2 ^ 63) (t : Ty.Ty) (ht : Ty.fromString m p.meta.storageType = some t)
    (hd : declared p.chunks ≠ size p.meta.shape * elsize t % 2 ^ 64) : fromProto m junk p = .error .throw := by
  unfold fromProto fromProtoReal
  rw [hc, ht]
  simp only [Bool.false_eq_true, if_false]
  split_ifs with a1 a2
  · rfl
  · rfl
  cases ho : orderChunks p.chunks with
  | none => rfl
  | some l =>
    simp only
    rw [numel64_ok _ hs]
    simp only [bind, Except.bind, List.length_map, List.length_range]
    rw [if_pos]
    intro h
    exact hd h.symm

/-- C12 finding: a chunk longer than the size it declares is copied past the end of the buffer; the sizes are compared only
    after all copies. -/
theorem c12_overrun (m : Ty.Ctx) (junk : ℕ → UInt8) (mt : Meta) (t : Ty.Ty) (c : Bytes) (hc : mt.isComplex = false)
    (ht : Ty.fromString m mt.storageType = some t) (hd : mt.dataType ≠ 0) (hv : mt.visibility = visOf t)
    (hs : ∀ k, size (mt.shape.take k) < 2 ^ 63) (hf : size mt.shape * elsize t < 2 ^ 64)
    (hl : size mt.shape * elsize t < c.length) :
    fromProto m junk ⟨mt, [⟨size mt.shape * elsize t, 0, c⟩]⟩ = .error .ub := by
  unfold fromProto fromProtoReal
  rw [hc, ht]
  simp only [Bool.false_eq_true, if_false]
  rw [if_neg hd, if_neg (not_not.2 hv)]
  have ho : orderChunks [⟨size mt.shape * elsize t, 0, c⟩] = some [⟨size mt.shape * elsize t, 0, c⟩] := rfl
  rw [ho]
  simp only
  rw [numel64_ok _ hs]
  simp only [bind, Except.bind, List.length_map, List.length_range, List.head?_cons, Option.map_some, Option.getD_some]
  rw [Nat.mod_eq_of_lt hf, if_neg (not_not.2 rfl)]
  unfold fillLoop memcpyTo
  rw [if_neg (not_not.2 rfl), if_neg]
  · rfl
  · rw [List.length_map, List.length_range]; dsimp only; omega

/-- C12 finding: a chunk size within the byte count of 2^64 makes the rounded-up chunk count overflow to 0; the message then
    has no data. -/
theorem c12_chunk_wrap (v : Val) (max : ℕ) (hv : Val.Ok v) (hi : v.imag = none) (hb : v.bytes < 2 ^ 64)
    (hm : max < 2 ^ 64) (hw : 2 ^ 64 < v.bytes + max) : ∃ mt, toProto max v = .ok ⟨mt, []⟩ := by
  have hn := numel64_ok _ hv.count
  have hinv : ¬ (v.dtype = 0 ∨ visOf v.data.ty = .invalid) := by
    rintro (h | h)
    · exact hv.dtype h
    · exact hv.vis h
  unfold Model.Val.bytes at hb hw
  have hcount : chunksCount (size v.data.view.shape) (elsize v.data.ty) max = 0 := by
    unfold chunksCount
    simp only
    rw [Nat.mod_eq_of_lt hb]
    have : size v.data.view.shape * elsize v.data.ty + max - 1 =
        (size v.data.view.shape * elsize v.data.ty + max - 1 - 2 ^ 64) + 2 ^ 64 := by omega
    rw [this, Nat.add_mod_right, Nat.mod_eq_of_lt (by omega)]
    exact Nat.div_eq_of_lt (by omega)
  obtain ⟨xs, mem, h1, h2, h3, h4, h5, h6⟩ := arrayToChunks_spec v.data hv.data 0 max hb
  have hbc : buildChunks mem (size v.data.view.shape * elsize v.data.ty) 0 max = .ok [] := by
    unfold buildChunks
    split_ifs <;> rfl
  refine ⟨⟨v.dtype, false, visOf v.data.ty, v.data.view.shape, v.data.ty.str⟩, ?_⟩
  unfold toProto toMeta
  simp only [if_neg (show max ≠ 0 by omega), if_neg hinv, hn, hi, bind, Except.bind, hcount, h6, hbc]
  rfl

/-- C12 finding: the byte count of the buffer is computed modulo 2^64.  A message with no chunks for 2^61 elements of 8 bytes
    is accepted; the value has a buffer of no bytes. -/
theorem c12_size_wrap (ps : List Ty.Proto) (junk : ℕ → UInt8) (h : Ty.Proto.semi2k ∈ ps) :
    fromProto (Ty.registry ps) junk ⟨⟨8, false, .secret, [2 ^ 61], (Ty.Ty.ring .semi2kA .fm64).str⟩, []⟩ =
      .ok ⟨.ring .semi2kA .fm64, [2 ^ 61], [], none, 8⟩ := by
  have ht := fromString_str ps (.ring .semi2kA .fm64) (Or.inr ⟨.semi2k, h, by decide⟩) ⟨rfl, trivial⟩
  unfold fromProto fromProtoReal
  simp only [Bool.false_eq_true, if_false]
  rw [ht]
  rfl

/-- C12 finding: of an odd number of chunks of a complex value, the last one is ignored. -/
theorem c12_odd_complex (m : Ty.Ctx) (junk : ℕ → UInt8) (mt : Meta) (cs : List Chunk) (c : Chunk) (hc : mt.isComplex = true)
    (hl : cs.length % 2 = 0) : fromProto m junk ⟨mt, cs ++ [c]⟩ = fromProto m junk ⟨mt, cs⟩ := by
  unfold fromProto
  simp only [hc, if_true, List.length_append, List.length_singleton]
  have : (cs.length + 1) / 2 = cs.length / 2 := by omega
  rw [this, List.take_append_of_le_length (by omega), List.drop_append_of_le_length (by omega),
    List.take_append_of_le_length (by rw [List.length_drop]; omega)]

/-! ## Examples -/

/-- a transposed 2x2 array of four-byte elements; its layout is not compact -/
def exVal : Val :=
  ⟨⟨.ring .semi2kA .fm32, ⟨[2, 2], [1, 2], 0⟩, #[[1, 0, 0, 0], [2, 0, 0, 0], [3, 0, 0, 0], [4, 0, 0, 0]]⟩, none, 6⟩

example : Val.Ok exVal where
  data := by
    refine ⟨⟨rfl, fun idx h => ?_⟩, by decide⟩
    cases h with
    | @cons i _ _ _ h1 h2 => cases h2 with
      | @cons j _ _ _ h3 h4 =>
        cases h4
        have : (i = 0 ∨ i = 1) ∧ (j = 0 ∨ j = 1) := by omega
        rcases this with ⟨rfl | rfl, rfl | rfl⟩ <;> exact ⟨_, rfl⟩
  imag := by intro a h; cases h
  dtype := by decide
  vis := by decide
  count := by intro k; rcases k with _ | _ | k <;> simp [exVal, size]

example : toProto 10 exVal = .ok ⟨⟨6, false, .secret, [2, 2], (Ty.Ty.ring .semi2kA .fm32).str⟩,
    [⟨16, 0, [1, 0, 0, 0, 3, 0, 0, 0, 2, 0]⟩, ⟨16, 10, [0, 0, 4, 0, 0, 0]⟩]⟩ := by decide +kernel

/-- the same chunks in the other order are read back -/
example : fromProto (Ty.registry [.semi2k]) (fun _ => 7) ⟨⟨6, false, .secret, [2, 2], (Ty.Ty.ring .semi2kA .fm32).str⟩,
    [⟨16, 10, [0, 0, 4, 0, 0, 0]⟩, ⟨16, 0, [1, 0, 0, 0, 3, 0, 0, 0, 2, 0]⟩]⟩ =
    .ok ⟨.ring .semi2kA .fm32, [2, 2], [1, 0, 0, 0, 3, 0, 0, 0, 2, 0, 0, 0, 4, 0, 0, 0], none, 6⟩ := by decide +kernel

/-- a gap between chunks is rejected -/
example : fromProto (Ty.registry [.semi2k]) (fun _ => 7) ⟨⟨6, false, .secret, [1], (Ty.Ty.ring .semi2kA .fm32).str⟩,
    [⟨4, 0, [1]⟩, ⟨4, 2, [3, 4]⟩]⟩ = .error .throw := by decide +kernel

end Spu.Props
