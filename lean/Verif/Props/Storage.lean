import Verif.Proof.Storage
import Verif.Spec.Pool
import Verif.Spec.Sample

/-!
# C53: how much storage reading from a reader takes
-/

namespace Jzon.Props

open Jzon Spec

/-! ## Without keeping text -/

/-- **C53**: skipping a value leaves the storage at its size, however long the value is. -/
theorem C53_skip (pool : Stack) {it it' : PhysIt} {r : Except Err Unit} (h : PhysIt.Run (Skip pool) it r it') (ho : it.Ok)
    (hc : it.capture = false) : it'.store.length = it.store.length :=
  (h.plain (plain_Skip pool) ho hc).1

/-- **C53**: reading a string leaves it at its size. -/
theorem C53_string {it it' : PhysIt} {r : Except Err (List Byte)} (h : PhysIt.Run ReadString it r it') (ho : it.Ok)
    (hc : it.capture = false) : it'.store.length = it.store.length :=
  (h.plain plain_ReadString ho hc).1

/-- **C53**: so does decoding into a type that needs no text in one piece, whatever the input is and whether it fits. -/
theorem C53_on_the_fly {F : Type} (Γ : TyEnv F) (cfg : DecCfg F) (pools : Pools) (S : Nat → Prop) (hS : Streams Γ S) (T : Ty)
    (hT : OnTheFly S T) (old : Val F) {it it' : PhysIt} {r : Except Err (Val F)}
    (h : PhysIt.Run (ReadVal Γ cfg pools T old) it r it') (ho : it.Ok) (hc : it.capture = false) :
    it'.store.length = it.store.length :=
  (h.plain (plain_ReadVal Γ cfg pools S hS T hT old) ho hc).1

/-- A map to slices of strings, behind pointers. -/
example : OnTheFly (fun _ => False) (.ptr (.map .str (.slice (.ptr .str)))) :=
  ⟨nofun, trivial⟩

/-- Such runs exist: a long value on a new iterator. -/
example : ∃ r it', PhysIt.Run (Skip ⟨[], 0⟩) (freshReader false false (.more (List.replicate 5000 (b! '[')) .eof)) r it' ∧
    it'.store.length = 64 := by
  obtain ⟨r, it', h, _⟩ := PhysIt.run_exists (Skip ⟨[], 0⟩) (freshReader false false (.more (List.replicate 5000 (b! '[')) .eof))
    ⟨Nat.le_refl _, Nat.zero_le _⟩ (.inl (List.cons_ne_nil 0 (List.replicate 63 0)))
  exact ⟨r, it', h, C53_skip _ h ⟨Nat.le_refl _, Nat.zero_le _⟩ rfl⟩

/-! ## Keeping text -/

/-- **C53**: after a value was handed out as text the storage has the size it had, or reaches at most 512 bytes behind the text;
so it has grown by no more than the text and 512 bytes. -/
theorem C53_raw (pool : Stack) {it it' : PhysIt} {text : List Byte} (h : PhysIt.Run (SkipRaw pool) it (.ok text) it') (ho : it.Ok)
    (hc : it.capture = false) :
    it'.store.length ≤ max it.store.length (it'.head + 512) ∧ it'.store.length ≤ it.store.length + text.length + 512 := by
  change PhysIt.Run (.op (.token _) fun c => .captured _ fun x => .pure x.2) _ _ _ at h
  cases h with
  | op _ _ _ it1 _ c _ h1 h2 =>
    have g := h1.grow ho
    obtain ⟨_, l, hl, h3, h4⟩ := PhysIt.Run.one_text (f := fun _ l => l) h2 g.ok _ rfl
    have hp := (g.plain hc).1
    have := g.ok.head
    have := g.ok.tail
    subst hl
    omega

/-- **C53**: the same for numbers that are read as text. -/
theorem C53_number {it it' : PhysIt} {text : List Byte} (h : PhysIt.Run ReadNumber it (.ok text) it') (ho : it.Ok)
    (hc : it.capture = false) :
    it'.store.length ≤ max it.store.length (it'.head + 512) ∧ it'.store.length ≤ it.store.length + text.length + 512 := by
  change PhysIt.Run (.op (.token _) fun c => .captured _ fun x => .pure (c :: x.2)) _ _ _ at h
  cases h with
  | op _ _ _ it1 _ c _ h1 h2 =>
    have g := h1.grow ho
    obtain ⟨_, l, hl, h3, h4⟩ := PhysIt.Run.one_text (f := fun _ l => c :: l) h2 g.ok _ rfl
    have hp := (g.plain hc).1
    have := g.ok.head
    have := g.ok.tail
    subst hl
    simp only [List.length_cons]
    omega

/-- **C53**: whatever is done with the iterator, its storage is never larger than what it was plus what the reader delivered. -/
theorem C53_delivered {α : Type} {p : Prog α} {it it' : PhysIt} {r : Except Err α} (h : PhysIt.Run p it r it') (ho : it.Ok)
    (he : Feed.fin it.feed = .eof) :
    it'.store.length ≤ it.store.length + ((Feed.left it.feed).length - (Feed.left it'.feed).length) := by
  have := (h.total ho he).2
  omega

/-! ## What does not hold -/

/-- Read numbers, `/repo/iterator_number.go:22-34`, one after the other. -/
def readNumbers : Nat → Prog (List (List Byte))
  | 0 => pure []
  | n + 1 => do
    let x ← ReadNumber
    let xs ← readNumbers n
    pure (x :: xs)

/-- The stream ` 10 10 10…`. -/
def tens : Nat → List Byte
  | 0 => []
  | n + 1 => bs! " 10" ++ tens n

theorem tens_length (n : Nat) : (tens n).length = 3 * n := by
  induction n with
  | zero => rfl
  | succ n ih => simp only [tens, List.length_append, ih]; simp; omega

theorem tens_snoc (n : Nat) : tens n ++ bs! " 10" = tens (n + 1) := by
  induction n with
  | zero => rfl
  | succ n ih =>
    rw [tens, List.append_assoc, ih]
    rfl

/-- The iterator with all of the stream so far in its storage. -/
def hoarding (k m cap : Nat) : PhysIt :=
  ⟨tens (k + 1), 3 * (k + 1), 3 * k, 0, false, some (.more (tens m) .eof), cap, none, none, false, false⟩

theorem tens_window (k : Nat) : ((tens (k + 1)).take (3 * (k + 1))).drop (3 * k) = bs! " 10" := by
  rw [List.take_of_length_le (by rw [tens_length]; omega), ← tens_snoc, List.drop_append, tens_length,
    List.drop_eq_nil_of_le (by rw [tens_length]; omega)]
  simp

/-- A number is read; its end is only seen when the next packet arrives, which is appended. -/
theorem hoards (k m cap : Nat) (hcap : 3 * (k + 2) ≤ cap) :
    PhysIt.Run ReadNumber (hoarding k (m + 1) cap) (.ok (bs! "10")) (hoarding (k + 1) m cap) := by
  change PhysIt.Run (.op (.token _) fun c => .captured _ fun x => .pure (c :: x.2)) _ _ _
  have hlen : ∀ n, (hoarding n (m + 1) cap).tail ≤ (hoarding n (m + 1) cap).store.length := fun n => by
    simp [hoarding, tens_length]
  refine .op _ _ _ { hoarding k (m + 1) cap with head := 3 * k + 2 } _ (b! '1') _ ?_ ?_
  · refine .token _ _ { hoarding k (m + 1) cap with head := 3 * k + 1 } (b! '1') ?_
    refine .stop () _ _ _ (hlen k) ?_
    simp only [hoarding]
    rw [tens_window]
    rfl
  · have hw : ((tens (k + 1)).take (3 * (k + 1))).drop (3 * k + 2) = [b! '0'] := by
      rw [← List.drop_drop, tens_window]
      rfl
    have hrun : PhysIt.Run (skipNumber (b! '1')) { hoarding k (m + 1) cap with head := 3 * k + 2, capture := true } (.ok ())
        { hoarding (k + 1) m cap with capture := true } := by
      change PhysIt.Run (.op (.scan intBody (fun _ => .ok .fin) ()) _) _ _ _
      refine .op _ _ _ { hoarding (k + 1) m cap with capture := true } _ NumStop.fin _ ?_ (PhysIt.Run.pure () _)
      refine .scan _ _ _ _ _ _ ?_
      refine .again () () _ { hoarding (k + 1) m cap with capture := true } _ (3 * (k + 1)) _ (hlen k) ?_ ?_ ?_
      · simp only [hoarding]
        rw [hw]
        rfl
      · refine .bytes _ _ ⟨bs! " 10", none⟩ ?_ rfl (by simp)
        have := PhysIt.Fill.captured { hoarding k (m + 1) cap with head := 3 * (k + 1), capture := true } (.more (tens (m + 1)) .eof)
          (.more (tens m) .eof) ⟨bs! " 10", none⟩ cap rfl rfl (.chunk (bs! " 10") (tens m) .eof 512 (by simp)) (Nat.le_refl _)
          (by simp [hoarding]; omega)
        rw [show (hoarding k (m + 1) cap).store.take (hoarding k (m + 1) cap).tail ++ bs! " 10" = tens (k + 2) from by
          simp only [hoarding]
          rw [List.take_of_length_le (by rw [tens_length]; omega), tens_snoc]] at this
        exact this
      · refine .stop () _ NumStop.fin (3 * (k + 1)) ?_ ?_
        · simp [hoarding, tens_length]
        · simp only [hoarding]
          rw [tens_window]
          rfl
    have := PhysIt.Run.captured (skipNumber (b! '1')) (fun x => .pure (b! '1' :: x.2)) { hoarding k (m + 1) cap with head := 3 * k + 2 }
      _ _ () _ hrun ⟨by simp only [hoarding]; omega, by simp [hoarding, tens_length]; omega⟩ (.pure _ _)
    have ht : ((tens (k + 2)).take (3 * (k + 1))).drop (3 * k + 2) = [b! '0'] := by
      rw [← tens_snoc (k + 1), List.take_append_of_le_length (by rw [tens_length]; omega)]
      exact hw
    simp only [hoarding] at this ⊢
    rw [ht] at this
    exact this

theorem hoards_all (k n cap : Nat) (hcap : 3 * (k + n + 1) ≤ cap) :
    PhysIt.Run (readNumbers n) (hoarding k n cap) (.ok (List.replicate n (bs! "10"))) (hoarding (k + n) 0 cap) := by
  induction n generalizing k with
  | zero => exact .pure _ _
  | succ n ih =>
    have h := ih (k + 1) (by omega)
    rw [show k + 1 + n = k + (n + 1) from by omega] at h
    exact (hoards k n cap (by omega)).bind (h.bind (.pure _ _))

/-- The first number, on a new iterator. -/
theorem hoards_first (m : Nat) (cap : Nat) (hcap : 64 ≤ cap) :
    PhysIt.Run ReadNumber (freshReader false false (.more (tens (m + 2)) .eof)) (.ok (bs! "10")) (hoarding 1 m cap) := by
  let w : List Byte := bs! " 10" ++ List.replicate 61 0
  let a : PhysIt := ⟨w, 3, 0, 0, false, some (.more (tens (m + 1)) .eof), 64, none, none, false, false⟩
  change PhysIt.Run (.op (.token _) fun c => .captured _ fun x => .pure (c :: x.2)) _ _ _
  have hr : PhysIt.ReadMore (freshReader false false (.more (tens (m + 2)) .eof)) none a :=
    .bytes _ _ ⟨bs! " 10", none⟩ (.plain _ _ _ _ w rfl rfl (.chunk (bs! " 10") (tens (m + 1)) .eof 64 (by simp)) rfl rfl) rfl (by simp)
  refine .op _ _ _ { a with head := 2 } _ (b! '1') _ ?_ ?_
  · refine .token _ _ { a with head := 1 } (b! '1') ?_
    exact .again () () _ a _ 0 _ (Nat.zero_le _) rfl hr (.stop () a _ _ (Nat.le_of_ble_eq_true rfl) rfl)
  · refine .captured _ _ _ { hoarding 1 m cap with capture := true } _ () _ ?_ ⟨Nat.le_of_ble_eq_true rfl, Nat.le_of_ble_eq_true rfl⟩ (.pure _ _)
    change PhysIt.Run (.op (.scan intBody (fun _ => .ok .fin) ()) _) _ _ _
    refine .op _ _ _ { hoarding 1 m cap with capture := true } _ NumStop.fin _ ?_ (PhysIt.Run.pure () _)
    refine .scan _ _ _ _ _ _ ?_
    refine .again () () _ { hoarding 1 m cap with capture := true } _ 3 _ (Nat.le_of_ble_eq_true rfl) rfl ?_ ?_
    · refine .bytes _ _ ⟨bs! " 10", none⟩ ?_ rfl (by simp)
      exact .captured { a with head := 3, capture := true } (.more (tens (m + 1)) .eof) (.more (tens m) .eof) ⟨bs! " 10", none⟩ cap
        rfl rfl (.chunk (bs! " 10") (tens m) .eof 512 (by simp)) hcap (by simp [a]; omega)
    · exact .stop () _ NumStop.fin 3 (Nat.le_of_ble_eq_true rfl) rfl

/-- **C53 is violated**: there is no bound in terms of the size of the values.  A reader that delivers the numbers in packets
` 10`, all of them two bytes long, makes the iterator keep the whole stream: however large `K` is, after some numbers its storage has
more than `K` bytes, though only three of them are still to be read. -/
theorem C53_retained_violated (K : Nat) : ∃ n it', PhysIt.Run (readNumbers n) (freshReader false false (.more (tens (n + 1)) .eof))
    (.ok (List.replicate n (bs! "10"))) it' ∧ it'.unread.length = 3 ∧ K < it'.store.length := by
  refine ⟨K + 1, hoarding (K + 1) 0 (3 * K + 100), ?_, ?_, ?_⟩
  · have h := hoards_all 1 K (3 * K + 100) (by omega)
    rw [Nat.add_comm 1 K] at h
    exact (hoards_first K (3 * K + 100) (by omega)).bind (h.bind (.pure _ _))
  · simp only [PhysIt.unread, hoarding]
    rw [tens_window]
    rfl
  · simp only [hoarding, tens_length]
    omega

/-- **C53 is violated**: the slice that is handed to the reader may get smaller.  A reader that delivers `1` and then `0 ` leaves a new
iterator with a slice of 3 bytes instead of 64 for all further reading. -/
theorem C53_shrunk_violated : ∃ it', PhysIt.Run ReadNumber (freshReader false false (.more (bs! "10 20 30") .eof)) (.ok (bs! "10")) it' ∧
    it'.capture = false ∧ (freshReader false false (.more (bs! "10 20 30") .eof)).store.length = 64 ∧ it'.store.length = 3 := by
  let w : List Byte := bs! "1" ++ List.replicate 63 0
  let a : PhysIt := ⟨w, 1, 0, 0, false, some (.more (bs! "0 20 30") .eof), 64, none, none, false, false⟩
  let b : PhysIt := ⟨bs! "10 ", 3, 2, 0, false, some (.more (bs! "20 30") .eof), 64, none, none, false, false⟩
  refine ⟨b, ?_, rfl, rfl, rfl⟩
  change PhysIt.Run (.op (.token _) fun c => .captured _ fun x => .pure (c :: x.2)) _ _ _
  have hr : PhysIt.ReadMore (freshReader false false (.more (bs! "10 20 30") .eof)) none a :=
    .bytes _ _ ⟨bs! "1", none⟩ (.plain _ _ _ _ w rfl rfl (.chunk (bs! "1") (bs! "0 20 30") .eof 64 (by simp)) rfl rfl) rfl (by simp)
  refine .op _ _ _ { a with head := 1 } _ (b! '1') _ ?_ ?_
  · refine .token _ _ a (b! '1') ?_
    exact .again () () _ a _ 0 _ (Nat.zero_le _) rfl hr (.stop () a _ _ (Nat.le_of_ble_eq_true rfl) rfl)
  · refine .captured _ _ _ { b with capture := true } _ () _ ?_ ⟨Nat.le_of_ble_eq_true rfl, Nat.le_of_ble_eq_true rfl⟩ (.pure _ _)
    change PhysIt.Run (.op (.scan intBody (fun _ => .ok .fin) ()) _) _ _ _
    refine .op _ _ _ { b with capture := true } _ NumStop.fin _ ?_ (PhysIt.Run.pure () _)
    refine .scan _ _ _ _ _ _ ?_
    refine .again () () _ { b with head := 1, capture := true } _ 1 _ (Nat.le_of_ble_eq_true rfl) rfl ?_ ?_
    · refine .bytes _ _ ⟨bs! "0 ", none⟩ ?_ rfl (by simp)
      exact .captured { a with head := 1, capture := true } _ (.more (bs! "20 30") .eof) ⟨bs! "0 ", none⟩ 64
        rfl rfl (.chunk (bs! "0 ") (bs! "20 30") .eof 512 (by simp)) (Nat.le_refl _) (by simp [a])
    · exact .stop () _ NumStop.fin 2 (Nat.le_of_ble_eq_true rfl) rfl

end Jzon.Props
