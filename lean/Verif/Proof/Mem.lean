import Verif.Model.Mem
import Verif.Proof.Phys

/-!
# Helpers about memory
-/

set_option linter.unusedSimpArgs false

namespace Jzon

/-! ## Arrays and slices -/

/-- Arrays are added, none changes its length. -/
structure Heap.Ext (m m' : Heap) : Prop where
  next : m.next ≤ m'.next
  length : ∀ a, a < m.next → (m'.arr a).length = (m.arr a).length

theorem Heap.Ext.refl (m : Heap) : m.Ext m := ⟨Nat.le_refl _, fun _ _ => rfl⟩

theorem Heap.Ext.trans {a b c : Heap} (h : a.Ext b) (h' : b.Ext c) : a.Ext c :=
  ⟨Nat.le_trans h.next h'.next, fun x hx => by rw [h'.length x (Nat.lt_of_lt_of_le hx h.next), h.length x hx]⟩

theorem Slice.Ok.ext {m m' : Heap} {s : Slice} (h : s.Ok m) (e : m.Ext m') : s.Ok m' :=
  ⟨Nat.lt_of_lt_of_le h.used e.next, h.len, by rw [e.length _ h.used]; exact h.fits⟩

theorem write_other {m : Heap} {a b off : Nat} {xs : List Byte} (h : b ≠ a) : (m.write a off xs).arr b = m.arr b := by
  simp [Heap.write, h]

theorem write_same (m : Heap) (a off : Nat) (xs : List Byte) :
    (m.write a off xs).arr a = (m.arr a).take off ++ xs ++ (m.arr a).drop (off + xs.length) := by simp [Heap.write]

theorem write_next (m : Heap) (a off : Nat) (xs : List Byte) : (m.write a off xs).next = m.next := rfl

theorem write_ext {m : Heap} {a off : Nat} {xs : List Byte} (h : off + xs.length ≤ (m.arr a).length) : m.Ext (m.write a off xs) := by
  refine ⟨Nat.le_refl _, fun b _ => ?_⟩
  by_cases hb : b = a
  · subst hb
    rw [write_same]
    simp
    omega
  · rw [write_other hb]

theorem alloc_old {m : Heap} {xs : List Byte} {a : Nat} (h : a < m.next) : (m.alloc xs).arr a = m.arr a := by
  have : a ≠ m.next := by omega
  simp [Heap.alloc, this]

theorem alloc_new (m : Heap) (xs : List Byte) : (m.alloc xs).arr m.next = xs := by simp [Heap.alloc]

theorem alloc_next (m : Heap) (xs : List Byte) : (m.alloc xs).next = m.next + 1 := rfl

theorem alloc_ext (m : Heap) (xs : List Byte) : m.Ext (m.alloc xs) :=
  ⟨Nat.le_succ _, fun a ha => by rw [alloc_old ha]⟩

theorem bytes_congr {m m' : Heap} {s : Slice} (h : m'.arr s.arr = m.arr s.arr) : s.bytes m' = s.bytes m := by
  simp [Slice.bytes, h]

theorem bytes_length {m : Heap} {s : Slice} (h : s.Ok m) : (s.bytes m).length = s.len := by
  have := h.len
  have := h.fits
  simp [Slice.bytes]
  omega

theorem upto_ok {m : Heap} {s : Slice} {k : Nat} (h : s.Ok m) (hk : k ≤ s.cap) : (s.upto k).Ok m := ⟨h.used, hk, h.fits⟩

theorem upto_bytes {m : Heap} {s : Slice} {k : Nat} (hk : k ≤ s.len) : (s.upto k).bytes m = (s.bytes m).take k := by
  simp [Slice.bytes, Slice.upto, List.take_take, Nat.min_eq_left hk]

theorem sub_bytes {m : Heap} {s : Slice} {i j : Nat} (hj : j ≤ s.len) : (s.sub i j).bytes m = ((s.bytes m).take j).drop i := by
  simp [Slice.bytes, Slice.sub, List.take_take, Nat.min_eq_left hj, List.drop_take, List.drop_drop]

theorem sub_ok {m : Heap} {s : Slice} {i j : Nat} (h : s.Ok m) (hi : i ≤ j) (hj : j ≤ s.len) : (s.sub i j).Ok m := by
  have h1 := h.len
  have h2 := h.fits
  exact ⟨h.used, by simp only [Slice.sub]; omega, by simp only [Slice.sub]; omega⟩

/-- What `append` does. -/
structure Appended (m : Heap) (s : Slice) (xs : List Byte) (m' : Heap) (s' : Slice) : Prop where
  ok : s'.Ok m'
  bytes : s'.bytes m' = s.bytes m ++ xs
  ext : m.Ext m'
  other : ∀ a, a < m.next → a ≠ s.arr → m'.arr a = m.arr a
  before : (m'.arr s.arr).take (s.off + s.len) = (m.arr s.arr).take (s.off + s.len)
  cap : s.cap ≤ s'.cap
  arr : (s'.arr = s.arr ∧ s'.off = s.off ∧ s'.cap = s.cap ∧ m'.next = m.next) ∨ (s'.arr = m.next ∧ m'.next = m.next + 1)
  len : s'.len = s.len + xs.length

theorem append_spec {m m' : Heap} {s s' : Slice} {xs : List Byte} (hs : s.Ok m) (h : Append m s xs m' s') :
    Appended m s xs m' s' := by
  have h1 := hs.len
  have h2 := hs.fits
  have h3 := hs.used
  cases h with
  | inPlace hc =>
    have hw : s.off + s.len + xs.length ≤ (m.arr s.arr).length := by omega
    have he := write_ext hw
    refine ⟨⟨h3, hc, by rw [he.length _ h3]; exact h2⟩, ?_, he, fun a _ hne => write_other hne, ?_, Nat.le_refl _,
      .inl ⟨rfl, rfl, rfl, rfl⟩, rfl⟩
    · simp only [Slice.bytes]
      rw [write_same]
      have e1 : ((m.arr s.arr).take (s.off + s.len)).length = s.off + s.len := by simp; omega
      rw [List.append_assoc, List.drop_append_of_le_length (by rw [e1]; omega), List.drop_take, Nat.add_sub_cancel_left]
      have e2 : (((m.arr s.arr).drop s.off).take s.len).length = s.len := by simp; omega
      rw [List.take_append, e2, List.take_of_length_le (by rw [e2]; omega), Nat.add_sub_cancel_left,
        List.take_append_of_le_length (Nat.le_refl _), List.take_of_length_le (Nat.le_refl _)]
    · rw [write_same, List.append_assoc, List.take_append_of_le_length (by simp; omega), List.take_take, Nat.min_self]
  | grow room hc =>
    refine ⟨⟨by simp [alloc_next], by simp, ?_⟩, ?_, alloc_ext _ _, fun a ha _ => alloc_old ha, ?_, by simp; omega,
      .inr ⟨rfl, rfl⟩, rfl⟩
    · show 0 + (s.len + xs.length + room.length) ≤ _
      rw [alloc_new]
      simp [bytes_length hs]
      omega
    · simp only [Slice.bytes, alloc_new]
      have e2 : (((m.arr s.arr).drop s.off).take s.len).length = s.len := by simp; omega
      rw [List.drop_zero, List.take_append_of_le_length (by rw [List.length_append, e2]; exact Nat.le_refl _),
        List.take_of_length_le (by rw [List.length_append, e2]; exact Nat.le_refl _)]
    · rw [alloc_old h3]

namespace MemIt

/-- The slices are in order; with a reader, `buffer` is `fixbuf` up to its length. -/
structure Ok (m : Heap) (it : MemIt) : Prop where
  buffer : it.buffer.Ok m
  fixbuf : it.fixbuf.Ok m
  tmp : it.tmp.Ok m
  tail : it.tail ≤ it.buffer.len
  distinct : it.fixbuf.arr ≠ it.tmp.arr
  reader : it.feed ≠ none → it.buffer.arr = it.fixbuf.arr ∧ it.buffer.off = it.fixbuf.off ∧ it.buffer.cap = it.fixbuf.cap

theorem Ok.ext {m m' : Heap} {it : MemIt} (h : it.Ok m) (e : m.Ext m') : it.Ok m' :=
  ⟨h.buffer.ext e, h.fixbuf.ext e, h.tmp.ext e, h.tail, h.distinct, h.reader⟩

theorem Ok.phys {m : Heap} {it : MemIt} (h : it.Ok m) (hh : it.head ≤ it.tail) : (it.phys m).Ok :=
  ⟨hh, by show it.tail ≤ (it.buffer.bytes m).length; rw [bytes_length h.buffer]; exact h.tail⟩

/-- The arrays that an iterator writes to. -/
def own (it : MemIt) (a : Nat) : Prop := a = it.fixbuf.arr ∨ a = it.tmp.arr

/-- What a step of the iterator leaves as it is. -/
structure Frame (m : Heap) (it : MemIt) (m' : Heap) (it' : MemIt) : Prop where
  ext : m.Ext m'
  other : ∀ a, a < m.next → ¬ it.own a → m'.arr a = m.arr a
  own : ∀ a, it'.own a → it.own a ∨ m.next ≤ a

theorem Frame.refl (m : Heap) (it it' : MemIt) (h1 : it'.fixbuf = it.fixbuf) (h2 : it'.tmp = it.tmp) : Frame m it m it' :=
  ⟨.refl _, fun _ _ _ => rfl, fun a h => .inl (by simpa [MemIt.own, h1, h2] using h)⟩

theorem Frame.trans {m m1 m' : Heap} {it it1 it' : MemIt} (h : Frame m it m1 it1) (h' : Frame m1 it1 m' it') : Frame m it m' it' := by
  refine ⟨h.ext.trans h'.ext, fun a ha hn => ?_, fun a ha => ?_⟩
  · have hn1 : ¬ it1.own a := fun ho => (h.own a ho).elim hn (fun h => by omega)
    rw [h'.other a (Nat.lt_of_lt_of_le ha h.ext.next) hn1, h.other a ha hn]
  · rcases h'.own a ha with h1 | h1
    · exact h.own a h1
    · exact .inr (Nat.le_trans h.ext.next h1)

theorem fill_spec {m m' : Heap} {it it' : MemIt} {r : RdRes} (ho : it.Ok m) (h : Fill m it r m' it') :
    it'.Ok m' ∧ Frame m it m' it' ∧ PhysIt.Fill (it.phys m) r (it'.phys m') := by
  cases h with
  | captured f f' r m' s hc hf hr ha =>
    obtain ⟨hb, hoff, hcap⟩ := ho.reader (by rw [hf]; simp)
    have htail : it.tail ≤ it.buffer.cap := Nat.le_trans ho.tail ho.buffer.len
    have hs := append_spec (upto_ok ho.buffer htail) ha
    have hlen : s.len = it.tail + r.data.length := hs.len
    refine ⟨⟨hs.ok, hs.ok, ho.tmp.ext hs.ext, ?_, ?_, fun _ => ⟨rfl, rfl, rfl⟩⟩, ⟨hs.ext, ?_, ?_⟩, ?_⟩
    · show it.tail + r.data.length ≤ s.len
      omega
    · show s.arr ≠ it.tmp.arr
      rcases hs.arr with ⟨h1, _⟩ | ⟨h1, _⟩
      · rw [h1]
        show it.buffer.arr ≠ _
        rw [hb]
        exact ho.distinct
      · have := ho.tmp.used
        omega
    · intro a ha hn
      refine hs.other a ha ?_
      show a ≠ it.buffer.arr
      rw [hb]
      exact fun h => hn (.inl h)
    · rintro a (h1 | h1)
      · have h1 : a = s.arr := h1
        rcases hs.arr with ⟨h2, _⟩ | ⟨h2, _⟩
        · left; left
          rw [h1, h2, ← hb]
          rfl
        · right
          omega
      · exact .inl (.inr h1)
    · have e : it.phys m = ⟨it.buffer.bytes m, it.tail, it.head, it.offset, it.capture, it.feed, it.fixbuf.cap, it.last,
        it.context, it.useNumber, it.disallowUnknownFields⟩ := rfl
      have := PhysIt.Fill.captured (it.phys m) f f' r s.cap hc hf hr
        (by show it.fixbuf.cap ≤ s.cap; rw [← hcap]; exact hs.cap)
        (by show it.tail + r.data.length ≤ s.cap; rw [← hlen]; exact hs.ok.len)
      have e2 : s.bytes m' = (it.buffer.bytes m).take it.tail ++ r.data := by
        rw [hs.bytes, upto_bytes ho.tail]
      simp only [phys] at this ⊢
      rw [e2]
      exact this
  | plain f f' r xs hc hf hr hl ht =>
    obtain ⟨hb, hoff, hcap⟩ := ho.reader (by rw [hf]; simp)
    have h1 := ho.buffer.len
    have h2 := ho.buffer.fits
    have he : m.Ext (m.write it.buffer.arr it.buffer.off xs) := write_ext (by omega)
    have hlen : r.data.length ≤ it.buffer.len := by
      rw [← hl, ← ht]
      simp
      omega
    refine ⟨⟨ho.buffer.ext he, ho.fixbuf.ext he, ho.tmp.ext he, hlen, ho.distinct, fun _ => ⟨hb, hoff, hcap⟩⟩,
      ⟨he, ?_, fun a ha => .inl ha⟩, ?_⟩
    · intro a ha hn
      refine write_other ?_
      rw [hb]
      exact fun h => hn (.inl h)
    · have e2 : it.buffer.bytes (m.write it.buffer.arr it.buffer.off xs) = xs := by
        simp only [Slice.bytes, write_same]
        have e3 : ((m.arr it.buffer.arr).take it.buffer.off).length = it.buffer.off := by simp; omega
        rw [List.append_assoc, List.drop_append_of_le_length (by rw [e3]; exact Nat.le_refl _),
          List.drop_of_length_le (by rw [e3]; exact Nat.le_refl _), List.nil_append,
          List.take_append_of_le_length (by omega), List.take_of_length_le (by omega)]
      have := PhysIt.Fill.plain (it.phys m) f f' r xs hc hf
        (by show f.Reads (it.buffer.bytes m).length r f'; rw [bytes_length ho.buffer]; exact hr)
        (by show xs.length = (it.buffer.bytes m).length; rw [bytes_length ho.buffer]; exact hl) ht
      simp only [phys] at this ⊢
      rw [e2]
      exact this

theorem Env.ext {m m' : Heap} {it : MemIt} (h : Env m it m') (ho : it.Ok m) : it.Ok m' := by
  have hb := ho.buffer
  have hf := ho.fixbuf
  have ht := ho.tmp
  exact ⟨⟨Nat.lt_of_lt_of_le hb.used h.next, hb.len, by rw [h.buffer]; exact hb.fits⟩,
    ⟨Nat.lt_of_lt_of_le hf.used h.next, hf.len, by rw [h.fixbuf]; exact hf.fits⟩,
    ⟨Nat.lt_of_lt_of_le ht.used h.next, ht.len, by rw [h.tmp]; exact ht.fits⟩, ho.tail, ho.distinct, ho.reader⟩

theorem Env.phys {m m' : Heap} {it : MemIt} (h : Env m it m') : it.phys m' = it.phys m := by
  simp only [MemIt.phys]
  rw [bytes_congr h.buffer]

/-- Steps of the iterator and of the rest of the program, in any order. -/
inductive Path : Heap → MemIt → Heap → MemIt → Prop
  | nil (m : Heap) (it : MemIt) : Path m it m it
  | step (m m1 m' : Heap) (it it1 it' : MemIt) (k : Kind) : Step m it k m1 it1 → Path m1 it1 m' it' → Path m it m' it'
  | env (m m1 m' : Heap) (it it' : MemIt) : Env m it m1 → Path m1 it m' it' → Path m it m' it'

theorem Path.trans {m m1 m' : Heap} {it it1 it' : MemIt} (h : Path m it m1 it1) (h' : Path m1 it1 m' it') : Path m it m' it' := by
  induction h with
  | nil => exact h'
  | step m m1 m2 it it1 it2 k hs _ ih => exact .step _ _ _ _ _ _ k hs (ih h')
  | env m m1 m2 it it2 he _ ih => exact .env _ _ _ _ _ he (ih h')

theorem Path.one {m m' : Heap} {it it' : MemIt} {k : Kind} (h : Step m it k m' it') : Path m it m' it' :=
  .step _ _ _ _ _ _ k h (.nil _ _)

theorem Path.fill {m m' : Heap} {it it' : MemIt} {r : RdRes} (h : Fill m it r m' it') : Path m it m' it' := by
  cases hc : it.capture with
  | true => exact .one (.fillCaptured r m' it' hc h)
  | false => exact .one (.fillPlain r m' it' hc h)

theorem Path.move {m m' : Heap} {it it' : MemIt} {i : Nat} (h : Path m { it with head := i } m' it') : Path m it m' it' :=
  .step _ _ _ _ _ _ .quiet (.move i) h

theorem readMore_spec {m m' : Heap} {it it' : MemIt} {e : Option Err} (h : ReadMore m it e m' it') (ho : it.Ok m) :
    it'.Ok m' ∧ Path m it m' it' ∧ PhysIt.ReadMore (it.phys m) e (it'.phys m') := by
  induction h with
  | env m m1 m' it it' e he _ ih =>
    obtain ⟨h1, h2, h3⟩ := ih (he.ext ho)
    exact ⟨h1, .env _ _ _ _ _ he h2, he.phys ▸ h3⟩
  | noReader m it hf => exact ⟨ho, .nil _ _, .noReader _ hf⟩
  | error m m' it it' r e hf hr hn =>
    obtain ⟨h1, h2, h3⟩ := fill_spec ho hf
    exact ⟨h1, .fill hf, .error _ _ r e h3 hr hn⟩
  | lastBytes m m' it it' r hf hr hn =>
    obtain ⟨h1, h2, h3⟩ := fill_spec ho hf
    exact ⟨h1, .fill hf, .lastBytes _ _ r h3 hr hn⟩
  | bytes m m' it it' r hf hr hn =>
    obtain ⟨h1, h2, h3⟩ := fill_spec ho hf
    exact ⟨h1, .fill hf, .bytes _ _ r h3 hr hn⟩
  | empty m m1 m' it it1 it' r e hf hr hn _ ih =>
    obtain ⟨h1, h2, h3⟩ := fill_spec ho hf
    obtain ⟨h4, h5, h6⟩ := ih h1
    exact ⟨h4, (Path.fill hf).trans h5, .empty _ _ _ r e h3 hr hn h6⟩

theorem Ok.move {m : Heap} {it : MemIt} (h : it.Ok m) (i : Nat) : ({ it with head := i } : MemIt).Ok m :=
  ⟨h.buffer, h.fixbuf, h.tmp, h.tail, h.distinct, h.reader⟩

theorem Ok.capture {m : Heap} {it : MemIt} (h : it.Ok m) (b : Bool) : ({ it with capture := b } : MemIt).Ok m :=
  ⟨h.buffer, h.fixbuf, h.tmp, h.tail, h.distinct, h.reader⟩

theorem scan_spec {σ β : Type} {body : σ → Byte → Act σ β} {onEOF : σ → Except Err β} {s : σ} {m m' : Heap} {it it' : MemIt}
    {r : Except Err β} (h : Scan body onEOF s m it r m' it') (ho : it.Ok m) :
    it'.Ok m' ∧ Path m it m' it' ∧ PhysIt.Scan body onEOF s (it.phys m) r (it'.phys m') := by
  have hlen : ∀ {m : Heap} {it : MemIt}, it.Ok m → it.tail ≤ it.buffer.len → (it.phys m).tail ≤ (it.phys m).store.length := by
    intro m it ho h
    show it.tail ≤ (it.buffer.bytes m).length
    rw [bytes_length ho.buffer]
    exact h
  induction h with
  | env s m m1 m' it it' r he _ ih =>
    obtain ⟨h1, h2, h3⟩ := ih (he.ext ho)
    exact ⟨h1, .env _ _ _ _ _ he h2, he.phys ▸ h3⟩
  | panic s m it hp => exact absurd ho.tail (by omega)
  | stop s m it b i ht hs => exact ⟨ho.move i, .move (.nil _ _), .stop s _ b i (hlen ho ht) hs⟩
  | err s m it e ht hs => exact ⟨ho, .nil _ _, .err s _ e (hlen ho ht) hs⟩
  | again s s' m m1 m' it it1 it' i r ht hs hm _ ih =>
    obtain ⟨h1, h2, h3⟩ := readMore_spec hm (ho.move i)
    obtain ⟨h4, h5, h6⟩ := ih h1
    exact ⟨h4, (Path.move h2).trans h5, .again s s' _ _ _ i r (hlen ho ht) hs h3 h6⟩
  | eof s s' m m1 it it1 i ht hs hm =>
    obtain ⟨h1, h2, h3⟩ := readMore_spec hm (ho.move i)
    exact ⟨h1, .move h2, .eof s s' _ _ i (hlen ho ht) hs h3⟩
  | fault s s' m m1 it it1 i e ht hs hm he =>
    obtain ⟨h1, h2, h3⟩ := readMore_spec hm (ho.move i)
    exact ⟨h1, .move h2, .fault s s' _ _ i e (hlen ho ht) hs h3 he⟩

theorem nextByte_spec {m m' : Heap} {it it' : MemIt} {r : Except Err Byte} (h : NextByte m it r m' it') (ho : it.Ok m) :
    it'.Ok m' ∧ Path m it m' it' ∧ PhysIt.NextByte (it.phys m) r (it'.phys m') := by
  induction h with
  | env m m1 m' it it' r he _ ih =>
    obtain ⟨h1, h2, h3⟩ := ih (he.ext ho)
    exact ⟨h1, .env _ _ _ _ _ he h2, he.phys ▸ h3⟩
  | here m it c hn hc => exact ⟨ho, .nil _ _, .here _ c hn hc⟩
  | panic m it hn hc => exact ⟨ho, .nil _ _, .panic _ hn hc⟩
  | more m m' it it' c he hm hc =>
    obtain ⟨h1, h2, h3⟩ := readMore_spec hm ho
    exact ⟨h1, h2, .more _ _ c he h3 hc⟩
  | morePanic m m' it it' he hm hc =>
    obtain ⟨h1, h2, h3⟩ := readMore_spec hm ho
    exact ⟨h1, h2, .morePanic _ _ he h3 hc⟩
  | error m m' it it' e he hm =>
    obtain ⟨h1, h2, h3⟩ := readMore_spec hm ho
    exact ⟨h1, h2, .error _ _ e he h3⟩

theorem settle_spec {m : Heap} {it : MemIt} (ho : it.Ok m) (c : Byte) (d : Dec) :
    (it.settle c d).2.Ok m ∧ Path m it m (it.settle c d).2 ∧ (it.phys m).settle c d = ((it.settle c d).1, (it.settle c d).2.phys m) := by
  cases d with
  | take => exact ⟨ho.move _, .move (.nil _ _), rfl⟩
  | leave => exact ⟨ho, .nil _ _, rfl⟩
  | fail e => exact ⟨ho, .nil _ _, rfl⟩

theorem opRun_spec {β : Type} {o : Op β} {m m' : Heap} {it it' : MemIt} {r : Except Err β} (h : OpRun o m it r m' it')
    (ho : it.Ok m) : it'.Ok m' ∧ Path m it m' it' ∧ PhysIt.OpRun o (it.phys m) r (it'.phys m') := by
  cases h with
  | token d _ _ _ it1 c hs =>
    obtain ⟨h1, h2, h3⟩ := scan_spec hs ho
    obtain ⟨h4, h5, h6⟩ := settle_spec h1 c (d c)
    have := PhysIt.OpRun.token d _ _ c h3
    rw [h6] at this
    exact ⟨h4, h2.trans h5, this⟩
  | tokenError d _ _ _ it1 e hs =>
    obtain ⟨h1, h2, h3⟩ := scan_spec hs ho
    exact ⟨h1, h2, .tokenError d _ _ e h3⟩
  | byte d _ _ _ it1 c hs =>
    obtain ⟨h1, h2, h3⟩ := nextByte_spec hs ho
    obtain ⟨h4, h5, h6⟩ := settle_spec h1 c (d c)
    have := PhysIt.OpRun.byte d _ _ c h3
    rw [h6] at this
    exact ⟨h4, h2.trans h5, this⟩
  | byteError d _ _ _ it1 e hs =>
    obtain ⟨h1, h2, h3⟩ := nextByte_spec hs ho
    exact ⟨h1, h2, .byteError d _ _ e h3⟩
  | scan body onEOF s _ _ _ it1 r hs =>
    obtain ⟨h1, h2, h3⟩ := scan_spec hs ho
    exact ⟨h1, h2, .scan body onEOF s _ _ r h3⟩
  | inputOffset => exact ⟨ho, .nil _ _, .inputOffset _⟩
  | remaining => exact ⟨ho, .nil _ _, .remaining _⟩

theorem temp_spec {m m' : Heap} {it : MemIt} {k : Nat} {xs : List Byte} {s : Slice} (ho : it.Ok m) (hk : k ≤ it.tmp.len)
    (h : Append m (it.tmp.upto k) xs m' s) :
    ({ it with tmp := s } : MemIt).Ok m' ∧ Frame m it m' { it with tmp := s } := by
  have hs := append_spec (upto_ok ho.tmp (Nat.le_trans hk ho.tmp.len)) h
  refine ⟨⟨ho.buffer.ext hs.ext, ho.fixbuf.ext hs.ext, hs.ok, ho.tail, ?_, ho.reader⟩, ⟨hs.ext, ?_, ?_⟩⟩
  · show it.fixbuf.arr ≠ s.arr
    rcases hs.arr with ⟨h1, _⟩ | ⟨h1, _⟩
    · rw [h1]
      exact ho.distinct
    · have := ho.fixbuf.used
      omega
  · intro a ha hn
    exact hs.other a ha (fun h => hn (.inr h))
  · rintro a (h1 | h1)
    · exact .inl (.inl h1)
    · have h1 : a = s.arr := h1
      rcases hs.arr with ⟨h2, _⟩ | ⟨h2, _⟩
      · exact .inl (.inr (h1.trans h2))
      · right
        omega

/-- The bytes in `it.buffer` do not depend on `tmpBuffer`, unless the input itself is a slice of it. -/
theorem temp_phys {m m' : Heap} {it : MemIt} {k : Nat} {xs : List Byte} {s : Slice} (ho : it.Ok m) (hk : k ≤ it.tmp.len)
    (h : Append m (it.tmp.upto k) xs m' s) (hb : it.buffer.arr ≠ it.tmp.arr) :
    ({ it with tmp := s } : MemIt).phys m' = it.phys m := by
  have hs := append_spec (upto_ok ho.tmp (Nat.le_trans hk ho.tmp.len)) h
  have := bytes_congr (s := it.buffer) (hs.other _ ho.buffer.used hb)
  simp only [phys, this]

/-- The input is not a slice of the iterator's own `tmpBuffer`. -/
def Apart (it : MemIt) : Prop := it.buffer.arr ≠ it.tmp.arr

/-- After operations other than resets: there is a reader, or the input is what it was. -/
def Still (it it' : MemIt) : Prop := it'.feed ≠ none ∨ it'.buffer = it.buffer ∧ it'.tmp = it.tmp

theorem Still.apart {m : Heap} {it it' : MemIt} (h : Still it it') (ho : it'.Ok m) (ha : it.Apart) : it'.Apart := by
  rcases h with h | ⟨h1, h2⟩
  · unfold Apart
    rw [(ho.reader h).1]
    exact ho.distinct
  · unfold Apart
    rw [h1, h2]
    exact ha

theorem Still.trans {a b c : MemIt} (h : Still a b) (h' : Still b c) (hf : b.feed ≠ none → c.feed ≠ none) : Still a c := by
  rcases h with h | ⟨h1, h2⟩
  · exact .inl (hf h)
  · rcases h' with h' | ⟨h3, h4⟩
    · exact .inl h'
    · exact .inr ⟨h3.trans h1, h4.trans h2⟩

/-- `Still`, and a reader is not lost. -/
def Goes (it it' : MemIt) : Prop := Still it it' ∧ (it.feed ≠ none → it'.feed ≠ none)

theorem Goes.refl (it : MemIt) : Goes it it := ⟨.inr ⟨rfl, rfl⟩, id⟩

theorem Goes.trans {a b c : MemIt} (h : Goes a b) (h' : Goes b c) : Goes a c := ⟨h.1.trans h'.1 h'.2, fun x => h'.2 (h.2 x)⟩

theorem fill_goes {m m' : Heap} {it it' : MemIt} {r : RdRes} (h : Fill m it r m' it') : Goes it it' := by
  cases h <;> exact ⟨.inl (by simp), fun _ => by simp⟩

theorem readMore_goes {m m' : Heap} {it it' : MemIt} {e : Option Err} (h : ReadMore m it e m' it') : Goes it it' := by
  induction h with
  | env _ _ _ _ _ _ _ _ ih => exact ih
  | noReader => exact .refl _
  | error _ _ _ _ _ _ hf => exact fill_goes hf
  | lastBytes _ _ _ _ _ hf => exact fill_goes hf
  | bytes _ _ _ _ _ hf => exact fill_goes hf
  | empty _ _ _ _ _ _ _ _ hf _ _ _ ih => exact (fill_goes hf).trans ih

theorem move_goes (it : MemIt) (i : Nat) : Goes it { it with head := i } := ⟨.inr ⟨rfl, rfl⟩, id⟩

theorem scan_goes {σ β : Type} {body : σ → Byte → Act σ β} {onEOF : σ → Except Err β} {s : σ} {m m' : Heap} {it it' : MemIt}
    {r : Except Err β} (h : Scan body onEOF s m it r m' it') : Goes it it' := by
  induction h with
  | env _ _ _ _ _ _ _ _ _ ih => exact ih
  | panic => exact .refl _
  | stop => exact move_goes _ _
  | err => exact .refl _
  | again _ _ _ _ _ _ _ _ _ _ _ _ hm _ ih => exact ((move_goes _ _).trans (readMore_goes hm)).trans ih
  | eof _ _ _ _ _ _ _ _ _ hm => exact (move_goes _ _).trans (readMore_goes hm)
  | fault _ _ _ _ _ _ _ _ _ _ hm => exact (move_goes _ _).trans (readMore_goes hm)

theorem nextByte_goes {m m' : Heap} {it it' : MemIt} {r : Except Err Byte} (h : NextByte m it r m' it') : Goes it it' := by
  induction h with
  | env _ _ _ _ _ _ _ _ ih => exact ih
  | here => exact .refl _
  | panic => exact .refl _
  | more _ _ _ _ _ _ hm => exact readMore_goes hm
  | morePanic _ _ _ _ _ hm => exact readMore_goes hm
  | error _ _ _ _ _ _ hm => exact readMore_goes hm

theorem settle_goes (it : MemIt) (c : Byte) (d : Dec) : Goes it (it.settle c d).2 := by
  cases d
  · exact move_goes _ _
  · exact .refl _
  · exact .refl _

theorem opRun_goes {β : Type} {o : Op β} {m m' : Heap} {it it' : MemIt} {r : Except Err β} (h : OpRun o m it r m' it') :
    Goes it it' := by
  cases h with
  | token d _ _ _ it1 c hs => exact (scan_goes hs).trans (settle_goes _ _ _)
  | tokenError d _ _ _ it1 e hs => exact scan_goes hs
  | byte d _ _ _ it1 c hs => exact (nextByte_goes hs).trans (settle_goes _ _ _)
  | byteError d _ _ _ it1 e hs => exact nextByte_goes hs
  | scan body onEOF s _ _ _ it1 r hs => exact scan_goes hs
  | inputOffset => exact .refl _
  | remaining => exact .refl _

/-- A run in memory, with anything going on in the rest of the program, is a run of the iterator with its storage. -/
theorem run_spec {α : Type} {p : Prog α} {m m' : Heap} {it it' : MemIt} {r : Except Err α} (h : Run p m it r m' it')
    (ho : it.Ok m) (ha : it.Apart) :
    it'.Ok m' ∧ it'.Apart ∧ Path m it m' it' ∧ PhysIt.Run p (it.phys m) r (it'.phys m') := by
  induction h with
  | env p m m1 m' it it' r he _ ih =>
    obtain ⟨h1, h2, h3, h4⟩ := ih (he.ext ho) ha
    exact ⟨h1, h2, .env _ _ _ _ _ he h3, he.phys ▸ h4⟩
  | temp p m m1 m' it it' r k xs s hk hs _ ih =>
    have hap : ({ it with tmp := s } : MemIt).Apart := by
      have h1 := append_spec (upto_ok ho.tmp (Nat.le_trans hk ho.tmp.len)) hs
      have h2 := ho.buffer.used
      show it.buffer.arr ≠ s.arr
      rcases h1.arr with ⟨h3, _⟩ | ⟨h3, _⟩
      · rw [h3]
        exact ha
      · omega
    obtain ⟨h1, h2, h3, h4⟩ := ih (temp_spec ho hk hs).1 hap
    exact ⟨h1, h2, .step _ _ _ _ _ _ .temp (.temp k xs _ s hk hs) h3, temp_phys ho hk hs ha ▸ h4⟩
  | pure a m it => exact ⟨ho, ha, .nil _ _, .pure a _⟩
  | fail e m it => exact ⟨ho, ha, .nil _ _, .fail e _⟩
  | op o k m m1 m' it it1 it' b r hop _ ih =>
    obtain ⟨h1, h2, h3⟩ := opRun_spec hop ho
    obtain ⟨h4, h5, h6, h7⟩ := ih h1 ((opRun_goes hop).1.apart h1 ha)
    exact ⟨h4, h5, h2.trans h6, .op o k _ _ _ b r h3 h7⟩
  | opError o k m m1 it it1 e hop =>
    obtain ⟨h1, h2, h3⟩ := opRun_spec hop ho
    exact ⟨h1, (opRun_goes hop).1.apart h1 ha, h2, .opError o k _ _ e h3⟩
  | captured p k m m1 m' it it1 it' b r hp hr _ ih1 ih2 =>
    obtain ⟨h1, h2, h3, h4⟩ := ih1 (ho.capture true) ha
    obtain ⟨h5, h6, h7, h8⟩ := ih2 (h1.capture it.capture) h2
    refine ⟨h5, h6, ?_, ?_⟩
    · exact (Path.step _ _ _ _ _ _ .quiet (.capture true) h3).trans (.step _ _ _ _ _ _ .quiet (.capture it.capture) h7)
    · refine .captured p k (it.phys m) (it1.phys m1) _ b r h4 ⟨hr.1, ?_⟩ ?_
      · show it1.head ≤ (it1.buffer.bytes m1).length
        rw [bytes_length h1.buffer]
        exact hr.2
      · rw [sub_bytes hr.2] at h8
        exact h8
  | capturedPanic p k m m1 it it1 b hp hr ih1 =>
    obtain ⟨h1, h2, h3, h4⟩ := ih1 (ho.capture true) ha
    refine ⟨h1.capture _, h2, ?_, ?_⟩
    · exact (Path.step _ _ _ _ _ _ .quiet (.capture true) h3).trans (.one (.capture it.capture))
    · refine .capturedPanic p k (it.phys m) (it1.phys m1) b h4 ?_
      show ¬ (it.head ≤ it1.head ∧ it1.head ≤ (it1.buffer.bytes m1).length)
      rw [bytes_length h1.buffer]
      exact hr
  | capturedError p k m m1 it it1 e hp ih1 =>
    obtain ⟨h1, h2, h3, h4⟩ := ih1 (ho.capture true) ha
    exact ⟨h1.capture _, h2, (Path.step _ _ _ _ _ _ .quiet (.capture true) h3).trans (.one (.capture it.capture)),
      .capturedError p k (it.phys m) (it1.phys m1) e h4⟩

/-! ## Runs exist -/

/-- The same iterator, except for the capacity kept for readers. -/
def Rep (m : Heap) (it : MemIt) (pit : PhysIt) : Prop := it.Ok m ∧ ∃ c, pit = { it.phys m with fixcap := c }

theorem append_exists (m : Heap) (s : Slice) (xs : List Byte) : ∃ m' s', Append m s xs m' s' := by
  by_cases h : s.len + xs.length ≤ s.cap
  · exact ⟨_, _, .inPlace h⟩
  · exact ⟨_, _, .grow [] (by omega)⟩

theorem fill_back {m : Heap} {it : MemIt} {pit pit' : PhysIt} {r : RdRes} (h : PhysIt.Fill pit r pit') (hr : Rep m it pit) :
    ∃ m' it', Fill m it r m' it' ∧ Rep m' it' pit' := by
  obtain ⟨ho, c, rfl⟩ := hr
  cases h with
  | captured f f' r cap hc hf hrd _ _ =>
    obtain ⟨m', s, ha⟩ := append_exists m (it.buffer.upto it.tail) r.data
    have hfill := Fill.captured f f' r m' s hc hf hrd ha
    refine ⟨_, _, hfill, (fill_spec ho hfill).1, cap, ?_⟩
    have hs := append_spec (upto_ok ho.buffer (Nat.le_trans ho.tail ho.buffer.len)) ha
    have e2 : s.bytes m' = (it.buffer.bytes m).take it.tail ++ r.data := by rw [hs.bytes, upto_bytes ho.tail]
    simp only [phys]
    rw [e2]
  | plain f f' r store hc hf hrd hl ht =>
    have hl : store.length = (it.buffer.bytes m).length := hl
    have hrd : f.Reads (it.buffer.bytes m).length r f' := hrd
    rw [bytes_length ho.buffer] at hl hrd
    have hfill := Fill.plain (m := m) f f' r store hc hf hrd hl ht
    obtain ⟨h1, _, h2⟩ := fill_spec ho hfill
    refine ⟨_, _, hfill, h1, c, ?_⟩
    have e2 : it.buffer.bytes (m.write it.buffer.arr it.buffer.off store) = store := by
      have h3 := ho.buffer.len
      have h4 := ho.buffer.fits
      simp only [Slice.bytes, write_same]
      have e3 : ((m.arr it.buffer.arr).take it.buffer.off).length = it.buffer.off := by simp; omega
      rw [List.append_assoc, List.drop_append_of_le_length (by rw [e3]; exact Nat.le_refl _),
        List.drop_of_length_le (by rw [e3]; exact Nat.le_refl _), List.nil_append,
        List.take_append_of_le_length (by omega), List.take_of_length_le (by omega)]
    simp only [phys]
    rw [e2]

theorem readMore_back {pit pit' : PhysIt} {e : Option Err} (h : PhysIt.ReadMore pit e pit') {m : Heap} {it : MemIt} (hr : Rep m it pit) :
    ∃ m' it', ReadMore m it e m' it' ∧ Rep m' it' pit' := by
  induction h generalizing m it with
  | noReader pit hf =>
    obtain ⟨ho, c, rfl⟩ := hr
    exact ⟨m, it, .noReader m it hf, ho, c, rfl⟩
  | error pit pit' r e hf h1 h2 =>
    obtain ⟨m', it', h3, h4⟩ := fill_back hf hr
    exact ⟨m', it', .error _ _ _ _ r e h3 h1 h2, h4⟩
  | lastBytes pit pit' r hf h1 h2 =>
    obtain ⟨m', it', h3, h4⟩ := fill_back hf hr
    exact ⟨m', it', .lastBytes _ _ _ _ r h3 h1 h2, h4⟩
  | bytes pit pit' r hf h1 h2 =>
    obtain ⟨m', it', h3, h4⟩ := fill_back hf hr
    exact ⟨m', it', .bytes _ _ _ _ r h3 h1 h2, h4⟩
  | empty pit pit1 pit' r e hf h1 h2 _ ih =>
    obtain ⟨m1, it1, h3, h4⟩ := fill_back hf hr
    obtain ⟨m', it', h5, h6⟩ := ih h4
    exact ⟨m', it', .empty _ _ _ _ _ _ r e h3 h1 h2 h5, h6⟩

theorem Rep.move {m : Heap} {it : MemIt} {pit : PhysIt} (h : Rep m it pit) (i : Nat) :
    Rep m { it with head := i } { pit with head := i } := by
  obtain ⟨ho, c, rfl⟩ := h
  exact ⟨ho.move i, c, rfl⟩

theorem Rep.capture {m : Heap} {it : MemIt} {pit : PhysIt} (h : Rep m it pit) (b : Bool) :
    Rep m { it with capture := b } { pit with capture := b } := by
  obtain ⟨ho, c, rfl⟩ := h
  exact ⟨ho.capture b, c, rfl⟩

theorem scan_back {σ β : Type} {body : σ → Byte → Act σ β} {onEOF : σ → Except Err β} {s : σ} {pit pit' : PhysIt} {r : Except Err β}
    (h : PhysIt.Scan body onEOF s pit r pit') {m : Heap} {it : MemIt} (hr : Rep m it pit) :
    ∃ m' it', Scan body onEOF s m it r m' it' ∧ Rep m' it' pit' := by
  induction h generalizing m it with
  | panic s pit hp =>
    obtain ⟨ho, c, rfl⟩ := hr
    have hp : (it.buffer.bytes m).length < it.tail := hp
    rw [bytes_length ho.buffer] at hp
    exact absurd ho.tail (by omega)
  | stop s pit b i ht hs =>
    refine ⟨m, { it with head := i }, ?_, hr.move i⟩
    obtain ⟨ho, c, rfl⟩ := hr
    exact .stop s m it b i ho.tail hs
  | err s pit e ht hs =>
    refine ⟨m, it, ?_, hr⟩
    obtain ⟨ho, c, rfl⟩ := hr
    exact .err s m it e ho.tail hs
  | again s s' pit pit1 pit' i r ht hs hm _ ih =>
    obtain ⟨m1, it1, h1, h2⟩ := readMore_back hm (hr.move i)
    obtain ⟨m', it', h3, h4⟩ := ih h2
    refine ⟨m', it', ?_, h4⟩
    obtain ⟨ho, c, rfl⟩ := hr
    exact .again s s' m m1 m' it it1 it' i r ho.tail hs h1 h3
  | eof s s' pit pit1 i ht hs hm =>
    obtain ⟨m1, it1, h1, h2⟩ := readMore_back hm (hr.move i)
    refine ⟨m1, it1, ?_, h2⟩
    obtain ⟨ho, c, rfl⟩ := hr
    exact .eof s s' m m1 it it1 i ho.tail hs h1
  | fault s s' pit pit1 i e ht hs hm he =>
    obtain ⟨m1, it1, h1, h2⟩ := readMore_back hm (hr.move i)
    refine ⟨m1, it1, ?_, h2⟩
    obtain ⟨ho, c, rfl⟩ := hr
    exact .fault s s' m m1 it it1 i e ho.tail hs h1 he

theorem nextByte_back {pit pit' : PhysIt} {r : Except Err Byte} (h : PhysIt.NextByte pit r pit') {m : Heap} {it : MemIt}
    (hr : Rep m it pit) : ∃ m' it', NextByte m it r m' it' ∧ Rep m' it' pit' := by
  cases h with
  | here c hn hc =>
    refine ⟨m, it, ?_, hr⟩
    obtain ⟨ho, c, rfl⟩ := hr
    exact .here m it _ hn hc
  | panic hn hc =>
    refine ⟨m, it, ?_, hr⟩
    obtain ⟨ho, c, rfl⟩ := hr
    exact .panic m it hn hc
  | more _ c he hm hc =>
    obtain ⟨m1, it1, h1, h2⟩ := readMore_back hm hr
    refine ⟨m1, it1, ?_, h2⟩
    obtain ⟨ho, c, rfl⟩ := hr
    obtain ⟨ho1, c1, rfl⟩ := h2
    exact .more m m1 it it1 _ he h1 hc
  | morePanic _ he hm hc =>
    obtain ⟨m1, it1, h1, h2⟩ := readMore_back hm hr
    refine ⟨m1, it1, ?_, h2⟩
    obtain ⟨ho, c, rfl⟩ := hr
    obtain ⟨ho1, c1, rfl⟩ := h2
    exact .morePanic m m1 it it1 he h1 hc
  | error _ e he hm =>
    obtain ⟨m1, it1, h1, h2⟩ := readMore_back hm hr
    refine ⟨m1, it1, ?_, h2⟩
    obtain ⟨ho, c, rfl⟩ := hr
    exact .error m m1 it it1 e he h1

theorem settle_back {m : Heap} {it : MemIt} {pit : PhysIt} (hr : Rep m it pit) (c : Byte) (d : Dec) :
    (pit.settle c d).1 = (it.settle c d).1 ∧ Rep m (it.settle c d).2 (pit.settle c d).2 := by
  cases d with
  | take =>
    refine ⟨rfl, ?_⟩
    obtain ⟨ho, c, rfl⟩ := hr
    exact ⟨ho.move _, c, rfl⟩
  | leave => exact ⟨rfl, hr⟩
  | fail e => exact ⟨rfl, hr⟩

theorem opRun_back {β : Type} {o : Op β} {pit pit' : PhysIt} {r : Except Err β} (h : PhysIt.OpRun o pit r pit') {m : Heap} {it : MemIt}
    (hr : Rep m it pit) : ∃ m' it', OpRun o m it r m' it' ∧ Rep m' it' pit' := by
  cases h with
  | token d _ pit1 c hs =>
    obtain ⟨m', it', h1, h2⟩ := scan_back hs hr
    obtain ⟨h3, h4⟩ := settle_back h2 c (d c)
    exact ⟨m', _, by rw [h3]; exact .token d m m' it it' c h1, h4⟩
  | tokenError d _ pit1 e hs =>
    obtain ⟨m', it', h1, h2⟩ := scan_back hs hr
    exact ⟨m', it', .tokenError d m m' it it' e h1, h2⟩
  | byte d _ pit1 c hs =>
    obtain ⟨m', it', h1, h2⟩ := nextByte_back hs hr
    obtain ⟨h3, h4⟩ := settle_back h2 c (d c)
    exact ⟨m', _, by rw [h3]; exact .byte d m m' it it' c h1, h4⟩
  | byteError d _ pit1 e hs =>
    obtain ⟨m', it', h1, h2⟩ := nextByte_back hs hr
    exact ⟨m', it', .byteError d m m' it it' e h1, h2⟩
  | scan body onEOF s _ pit1 r hs =>
    obtain ⟨m', it', h1, h2⟩ := scan_back hs hr
    exact ⟨m', it', .scan body onEOF s m m' it it' r h1, h2⟩
  | inputOffset =>
    refine ⟨m, it, ?_, hr⟩
    obtain ⟨ho, c, rfl⟩ := hr
    exact .inputOffset m it
  | remaining =>
    refine ⟨m, it, ?_, hr⟩
    obtain ⟨ho, c, rfl⟩ := hr
    exact .remaining m it

theorem run_back {α : Type} {p : Prog α} {pit pit' : PhysIt} {r : Except Err α} (h : PhysIt.Run p pit r pit') {m : Heap} {it : MemIt}
    (hr : Rep m it pit) : ∃ m' it', Run p m it r m' it' ∧ Rep m' it' pit' := by
  induction h generalizing m it with
  | pure a pit => exact ⟨m, it, .pure a m it, hr⟩
  | fail e pit => exact ⟨m, it, .fail e m it, hr⟩
  | op o k pit pit1 pit' b r hop _ ih =>
    obtain ⟨m1, it1, h1, h2⟩ := opRun_back hop hr
    obtain ⟨m', it', h3, h4⟩ := ih h2
    exact ⟨m', it', .op o k m m1 m' it it1 it' b r h1 h3, h4⟩
  | opError o k pit pit1 e hop =>
    obtain ⟨m1, it1, h1, h2⟩ := opRun_back hop hr
    exact ⟨m1, it1, .opError o k m m1 it it1 e h1, h2⟩
  | captured p k pit pit1 pit' b r hp hc _ ih1 ih2 =>
    obtain ⟨m1, it1, h1, h2⟩ := ih1 (hr.capture true)
    obtain ⟨ho, c, rfl⟩ := hr
    obtain ⟨m', it', h3, h4⟩ := ih2 (h2.capture it.capture)
    obtain ⟨ho1, c1, rfl⟩ := h2
    have hc2 : it1.head ≤ (it1.buffer.bytes m1).length := hc.2
    rw [bytes_length ho1.buffer] at hc2
    refine ⟨m', it', .captured p k m m1 m' it it1 it' b r h1 ⟨hc.1, hc2⟩ ?_, h4⟩
    rw [sub_bytes hc2]
    exact h3
  | capturedPanic p k pit pit1 b hp hc ih1 =>
    obtain ⟨m1, it1, h1, h2⟩ := ih1 (hr.capture true)
    obtain ⟨ho, c, rfl⟩ := hr
    have h3 := h2.capture it.capture
    obtain ⟨ho1, c1, rfl⟩ := h2
    refine ⟨m1, _, .capturedPanic p k m m1 it it1 b h1 ?_, h3⟩
    have hc : ¬ (it.head ≤ it1.head ∧ it1.head ≤ (it1.buffer.bytes m1).length) := hc
    rw [bytes_length ho1.buffer] at hc
    exact hc
  | capturedError p k pit pit1 e hp ih1 =>
    obtain ⟨m1, it1, h1, h2⟩ := ih1 (hr.capture true)
    obtain ⟨ho, c, rfl⟩ := hr
    exact ⟨m1, _, .capturedError p k m m1 it it1 e h1, h2.capture it.capture⟩

/-- Every step keeps the slices in order and leaves the arrays of others alone. -/
theorem step_spec {m m' : Heap} {it it' : MemIt} {k : Kind} (h : Step m it k m' it') (ho : it.Ok m)
    (h0 : 0 < m.next) : it'.Ok m' ∧ Frame m it m' it' := by
  cases h with
  | fillCaptured r _ _ hc hf =>
    obtain ⟨h1, h2, _⟩ := fill_spec ho hf
    exact ⟨h1, h2⟩
  | fillPlain r _ _ hc hf =>
    obtain ⟨h1, h2, _⟩ := fill_spec ho hf
    exact ⟨h1, h2⟩
  | move i => exact ⟨ho.move i, .refl _ _ _ rfl rfl⟩
  | capture b => exact ⟨ho.capture b, .refl _ _ _ rfl rfl⟩
  | temp k xs _ s hk hs => exact temp_spec ho hk hs
  | resetBytes data hd =>
    exact ⟨⟨hd, ho.fixbuf, ho.tmp, Nat.le_refl _, ho.distinct, fun h => absurd rfl h⟩, .refl _ _ _ rfl rfl⟩
  | resetReader f =>
    exact ⟨⟨upto_ok ho.fixbuf (Nat.le_refl _), ho.fixbuf, ho.tmp, Nat.zero_le _, ho.distinct, fun _ => ⟨rfl, rfl, rfl⟩⟩,
      .refl _ _ _ rfl rfl⟩
  | reset =>
    exact ⟨⟨⟨h0, Nat.le_refl _, Nat.zero_le _⟩, ho.fixbuf, ho.tmp, Nat.le_refl _, ho.distinct, fun h => absurd rfl h⟩,
      .refl _ _ _ rfl rfl⟩
  | fields l c u d => exact ⟨⟨ho.buffer, ho.fixbuf, ho.tmp, ho.tail, ho.distinct, ho.reader⟩, .refl _ _ _ rfl rfl⟩

end MemIt

end Jzon
