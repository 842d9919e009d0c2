import Verif.Spec.Gc
import Verif.Proof.Gc

/-!
# Decoding keeps memory well-typed

Every step of a decoder finds the words that it wants to read or write, and leaves memory well-typed.
-/

set_option linter.unusedSimpArgs false

namespace Jzon.Gc

theorem Inside.trans {T U V : Typ} {o o' : Nat} (h : Inside T o U) (h' : Inside U o' V) : Inside T (o + o') V := by
  induction h generalizing o' with
  | self t => simpa using h'
  | elem n t i o u hi _ ih =>
    rw [Nat.add_assoc]
    exact .elem n t i _ _ hi (ih h')
  | part n t i m hi =>
    cases h' with
    | self => exact .part n t i m hi
    | elem _ _ j o u hj h =>
      rw [← Nat.add_assoc, ← Nat.add_mul]
      exact .elem n t (i + j) o _ (by omega) h
    | part _ _ j l hj =>
      rw [← Nat.add_mul]
      exact .part n t (i + j) l (by omega)
  | fst a b o u _ ih => exact .fst a b _ _ (ih h')
  | snd a b o u _ ih =>
    rw [Nat.add_assoc]
    exact .snd a b _ _ (ih h')

theorem At.inside {S : Layout} {p : Loc} {T t : Typ} {o : Nat} (h : At S p T) (hi : Inside T o t) : At S ⟨p.obj, p.off + o⟩ t := by
  obtain ⟨U, hs, hU⟩ := h
  exact ⟨U, hs, hU.trans hi⟩

theorem zeroCells_array (n : Nat) (t : Typ) : (zeroCells (.array n t)).length = n * size t := by
  simp [zeroCells, size, List.length_flatten]

theorem size_array (n : Nat) (t : Typ) : size (.array n t) = n * size t := zeroCells_array n t

theorem size_pair (a b : Typ) : size (.pair a b) = size a + size b := by simp [size, zeroCells]

theorem CellsOk.length {S : Layout} {t : Typ} {cs : List Cell} (h : CellsOk S t cs) : cs.length = size t := by
  induction t generalizing cs with
  | leaf => obtain ⟨n, rfl⟩ := h; rfl
  | str => obtain ⟨a, l, rfl, _⟩ := h; rfl
  | ptr t => obtain ⟨a, rfl, _⟩ := h; rfl
  | slice t => obtain ⟨a, l, c, rfl, _⟩ := h; rfl
  | map t => obtain ⟨a, rfl, _⟩ := h; rfl
  | array n t ih => rw [h.1, size_array]
  | pair a b iha ihb =>
    obtain ⟨x, y, rfl, hx, hy⟩ := h
    rw [List.length_append, iha hx, ihb hy, size_pair]
  | embed t => obtain ⟨a, rfl, _⟩ := h; rfl

theorem Inside.fits {T t : Typ} {o : Nat} (h : Inside T o t) : o + size t ≤ size T := by
  induction h with
  | self t => simp
  | elem n t i o u hi _ ih =>
    rw [size_array]
    calc i * size t + o + size u ≤ i * size t + size t := by omega
      _ = (i + 1) * size t := by rw [Nat.add_mul, Nat.one_mul]
      _ ≤ n * size t := Nat.mul_le_mul_right _ hi
  | part n t i m hi =>
    rw [size_array, size_array, ← Nat.add_mul]
    exact Nat.mul_le_mul_right _ hi
  | fst a b o u _ ih => rw [size_pair]; omega
  | snd a b o u _ ih => rw [size_pair]; omega

/-- A window of a list. -/
def win (cs : List Cell) (o n : Nat) : List Cell := (cs.drop o).take n

theorem win_win (cs : List Cell) {o n o' n' : Nat} (h : o' + n' ≤ n) : win (win cs o n) o' n' = win cs (o + o') n' := by
  unfold win
  rw [List.drop_take, List.take_take, List.drop_drop, Nat.min_eq_left (by omega)]

theorem win_all {cs : List Cell} {n : Nat} (h : cs.length = n) : win cs 0 n = cs := by
  subst h
  simp [win]

/-- A window replaced. -/
def patch (cs : List Cell) (o : Nat) (new : List Cell) : List Cell := cs.take o ++ new ++ cs.drop (o + new.length)

theorem patch_length {cs new : List Cell} {o : Nat} (h : o + new.length ≤ cs.length) : (patch cs o new).length = cs.length := by
  simp [patch]
  omega

theorem getElem?_win (cs : List Cell) (o n i : Nat) : (win cs o n)[i]? = if i < n then cs[o + i]? else none := by
  unfold win
  rw [List.getElem?_take]
  split
  · rw [List.getElem?_drop]
  · rfl

theorem getElem?_patch {cs new : List Cell} {o : Nat} (h : o + new.length ≤ cs.length) (i : Nat) :
    (patch cs o new)[i]? = if i < o then cs[i]? else if i < o + new.length then new[i - o]? else cs[i]? := by
  unfold patch
  have ho : (cs.take o).length = o := by rw [List.length_take]; omega
  by_cases h1 : i < o
  · rw [if_pos h1, List.append_assoc, List.getElem?_append_left (by omega), List.getElem?_take, if_pos h1]
  · rw [if_neg h1, List.append_assoc, List.getElem?_append_right (by omega), ho]
    by_cases h2 : i < o + new.length
    · rw [if_pos h2, List.getElem?_append_left (by omega)]
    · rw [if_neg h2, List.getElem?_append_right (by omega), List.getElem?_drop]
      congr 1
      omega

theorem win_patch_inside {cs new : List Cell} {o a n : Nat} (h : a + n ≤ cs.length) (h1 : a ≤ o) (h2 : o + new.length ≤ a + n) :
    win (patch cs o new) a n = patch (win cs a n) (o - a) new := by
  have hl : (win cs a n).length = n := by simp [win]; omega
  apply List.ext_getElem?
  intro i
  rw [getElem?_win, getElem?_patch (by omega), getElem?_patch (by omega), getElem?_win]
  grind

theorem win_patch_apart {cs new : List Cell} {o a n : Nat} (hn : o + new.length ≤ cs.length) (h : a + n ≤ o ∨ o + new.length ≤ a) :
    win (patch cs o new) a n = win cs a n := by
  apply List.ext_getElem?
  intro i
  rw [getElem?_win, getElem?_patch (by omega), getElem?_win]
  grind

theorem patch_all {cs new : List Cell} (h : new.length = cs.length) : patch cs 0 new = new := by
  simp [patch, h]

theorem patch_nil (cs : List Cell) (o : Nat) : patch cs o [] = cs := by
  simp [patch]

theorem pair_win {S : Layout} {a b : Typ} {cs : List Cell} :
    CellsOk S (.pair a b) cs ↔ cs.length = size a + size b ∧ CellsOk S a (win cs 0 (size a)) ∧ CellsOk S b (win cs (size a) (size b)) := by
  constructor
  · rintro ⟨x, y, rfl, hx, hy⟩
    have lx := hx.length
    have ly := hy.length
    refine ⟨by simp [lx, ly], ?_, ?_⟩
    · rw [show win (x ++ y) 0 (size a) = x by simp [win, ← lx]]
      exact hx
    · rw [show win (x ++ y) (size a) (size b) = y by simp [win, ← lx, ← ly]]
      exact hy
  · rintro ⟨hl, hx, hy⟩
    refine ⟨_, _, ?_, hx, hy⟩
    have : win cs (size a) (size b) = cs.drop (size a) := by
      unfold win
      rw [List.take_of_length_le]
      rw [List.length_drop]
      omega
    rw [this]
    simp [win]

/-- Reading at a place of the type. -/
theorem CellsOk.win {S : Layout} {T t : Typ} {o : Nat} (hi : Inside T o t) : ∀ {cs : List Cell}, CellsOk S T cs → CellsOk S t (win cs o (size t)) := by
  induction hi with
  | self t =>
    intro cs h
    rw [win_all h.length]
    exact h
  | elem n t i o u hi hin ih =>
    intro cs h
    have := ih (h.2 i hi)
    rwa [show (cs.drop (i * size t)).take (size t) = Gc.win cs (i * size t) (size t) from rfl, win_win _ hin.fits] at this
  | part n t i m hi =>
    intro cs h
    have hl := h.1
    have hm : i * size t + m * size t ≤ n * size t := by rw [← Nat.add_mul]; exact Nat.mul_le_mul_right _ hi
    refine ⟨?_, ?_⟩
    · rw [size_array]
      simp [Gc.win]
      omega
    · intro j hj
      have hj' : j * size t + size t ≤ m * size t := by
        rw [← Nat.succ_mul]; exact Nat.mul_le_mul_right _ hj
      have := h.2 (i + j) (by omega)
      rw [show (cs.drop ((i + j) * size t)).take (size t) = Gc.win cs ((i + j) * size t) (size t) from rfl] at this
      rw [show ∀ l : List Cell, (l.drop (j * size t)).take (size t) = Gc.win l (j * size t) (size t) from fun _ => rfl, size_array, win_win _ hj', ← Nat.add_mul]
      exact this
  | fst a b o u hin ih =>
    intro cs h
    have := ih (pair_win.1 h).2.1
    rwa [win_win _ hin.fits, Nat.zero_add] at this
  | snd a b o u hin ih =>
    intro cs h
    have := ih (pair_win.1 h).2.2
    rwa [win_win _ hin.fits] at this

/-- Writing at a place of the type. -/
theorem CellsOk.patch {S : Layout} {T t : Typ} {o : Nat} (hi : Inside T o t) :
    ∀ {cs new : List Cell}, CellsOk S T cs → CellsOk S t new → CellsOk S T (patch cs o new) := by
  induction hi with
  | self t =>
    intro cs new h hn
    rw [patch_all (by rw [h.length, hn.length])]
    exact hn
  | elem n t i o u hi hin ih =>
    intro cs new h hn
    have hf := hin.fits
    have hl := h.1
    have ln := hn.length
    have hn' : (i + 1) * size t ≤ n * size t := Nat.mul_le_mul_right _ hi
    rw [Nat.add_mul, Nat.one_mul] at hn'
    refine ⟨by rw [patch_length (by omega)]; exact hl, ?_⟩
    intro j hj
    show CellsOk S t (Gc.win _ _ _)
    have hj' : (j + 1) * size t ≤ n * size t := Nat.mul_le_mul_right _ hj
    rw [Nat.add_mul, Nat.one_mul] at hj'
    by_cases he : j = i
    · subst he
      rw [win_patch_inside (by omega) (by omega) (by omega), Nat.add_sub_cancel_left]
      exact ih (h.2 j hj) hn
    · rw [win_patch_apart (by omega)]
      · exact h.2 j hj
      · rcases Nat.lt_or_gt_of_ne he with hlt | hlt
        · have : (j + 1) * size t ≤ i * size t := Nat.mul_le_mul_right _ hlt
          rw [Nat.add_mul, Nat.one_mul] at this
          omega
        · have : (i + 1) * size t ≤ j * size t := Nat.mul_le_mul_right _ hlt
          rw [Nat.add_mul, Nat.one_mul] at this
          omega
  | part n t i m hi =>
    intro cs new h hn
    have hl := h.1
    have ln := hn.1
    have hm : i * size t + m * size t ≤ n * size t := by rw [← Nat.add_mul]; exact Nat.mul_le_mul_right _ hi
    refine ⟨by rw [patch_length (by omega)]; exact hl, ?_⟩
    intro j hj
    show CellsOk S t (Gc.win _ _ _)
    have hj' : (j + 1) * size t ≤ n * size t := Nat.mul_le_mul_right _ hj
    rw [Nat.add_mul, Nat.one_mul] at hj'
    by_cases h1 : j < i
    · have : (j + 1) * size t ≤ i * size t := Nat.mul_le_mul_right _ h1
      rw [Nat.add_mul, Nat.one_mul] at this
      rw [win_patch_apart (by omega) (by omega)]
      exact h.2 j hj
    · by_cases h2 : j < i + m
      · have h3 : (j + 1) * size t ≤ (i + m) * size t := Nat.mul_le_mul_right _ h2
        rw [Nat.add_mul, Nat.one_mul, Nat.add_mul] at h3
        have h4 : i * size t ≤ j * size t := Nat.mul_le_mul_right _ (by omega)
        have h5 : (j - i) * size t = j * size t - i * size t := Nat.sub_mul _ _ _
        have : Gc.win (Gc.patch cs (i * size t) new) (j * size t) (size t) = Gc.win new ((j - i) * size t) (size t) := by
          apply List.ext_getElem?
          intro x
          rw [getElem?_win, getElem?_win, getElem?_patch (by omega)]
          split
          · rw [if_neg (by omega), if_pos (by omega)]
            congr 1
            omega
          · rfl
        rw [this]
        exact hn.2 (j - i) (by omega)
      · have : (i + m) * size t ≤ j * size t := Nat.mul_le_mul_right _ (by omega)
        rw [Nat.add_mul] at this
        rw [win_patch_apart (by omega) (by omega)]
        exact h.2 j hj
  | fst a b o u hin ih =>
    intro cs new h hn
    have hf := hin.fits
    have ln := hn.length
    obtain ⟨hl, hx, hy⟩ := pair_win.1 h
    refine pair_win.2 ⟨by rw [patch_length (by omega)]; exact hl, ?_, ?_⟩
    · rw [win_patch_inside (by omega) (by omega) (by omega)]
      exact ih hx hn
    · rw [win_patch_apart (by omega) (by omega)]
      exact hy
  | snd a b o u hin ih =>
    intro cs new h hn
    have hf := hin.fits
    have ln := hn.length
    obtain ⟨hl, hx, hy⟩ := pair_win.1 h
    refine pair_win.2 ⟨by rw [patch_length (by omega)]; exact hl, ?_, ?_⟩
    · rw [win_patch_apart (by omega) (by omega)]
      exact hx
    · rw [win_patch_inside (by omega) (by omega) (by omega), Nat.add_sub_cancel_left]
      exact ih hy hn

/-- More objects. -/
def Layout.Sub (S S' : Layout) : Prop := ∀ o s, S o = some s → S' o = some s

theorem At.mono {S S' : Layout} (hs : S.Sub S') {p : Loc} {t : Typ} (h : At S p t) : At S' p t := by
  obtain ⟨T, h1, h2⟩ := h
  exact ⟨T, hs _ _ h1, h2⟩

theorem CellsOk.mono {S S' : Layout} (hs : S.Sub S') {t : Typ} {cs : List Cell} (h : CellsOk S t cs) : CellsOk S' t cs := by
  induction t generalizing cs with
  | leaf => exact h
  | str => obtain ⟨a, l, e, h⟩ := h; exact ⟨a, l, e, fun q hq => hs _ _ (h q hq)⟩
  | ptr t => obtain ⟨a, e, h⟩ := h; exact ⟨a, e, fun q hq => (h q hq).mono hs⟩
  | slice t => obtain ⟨a, l, c, e, hl, hn, h⟩ := h; exact ⟨a, l, c, e, hl, hn, fun q hq => (h q hq).mono hs⟩
  | map t => obtain ⟨a, e, h⟩ := h; exact ⟨a, e, fun q hq => hs _ _ (h q hq)⟩
  | array n t ih => exact ⟨h.1, fun i hi => ih (h.2 i hi)⟩
  | pair a b iha ihb => obtain ⟨x, y, e, hx, hy⟩ := h; exact ⟨x, y, e, iha hx, ihb hy⟩
  | embed t => obtain ⟨a, e, h⟩ := h; exact ⟨a, e, fun q hq => (h q hq).mono hs⟩

theorem ObjOk.mono {S S' : Layout} (hs : S.Sub S') {k : HeaderKind} {s : Shape} {x : Obj} (h : ObjOk S k s x) : ObjOk S' k s x := by
  cases s with
  | block t => exact ⟨CellsOk.mono hs h.1, h.2⟩
  | text => exact h
  | table t => exact ⟨h.1, fun e he => (h.2 e he).mono hs⟩
  | header t a c => obtain ⟨l, e, hl, h⟩ := h; exact ⟨l, e, hl, hs _ _ h⟩

theorem zero_ok (S : Layout) (t : Typ) : CellsOk S t (zeroCells t) := by
  induction t with
  | leaf => exact ⟨0, rfl⟩
  | str => exact ⟨none, 0, rfl, by simp⟩
  | ptr t => exact ⟨none, rfl, by simp⟩
  | slice t => exact ⟨none, 0, 0, rfl, by simp⟩
  | map t => exact ⟨none, rfl, by simp⟩
  | array n t ih =>
    refine ⟨zeroCells_array n t, ?_⟩
    intro i hi
    have : ((zeroCells (.array n t)).drop (i * size t)).take (size t) = zeroCells t := by
      induction n generalizing i with
      | zero => omega
      | succ n ihn =>
        simp only [zeroCells, List.replicate_succ, List.flatten_cons]
        cases i with
        | zero => simp [size]
        | succ i =>
          rw [Nat.add_mul, Nat.one_mul, List.drop_append, List.drop_eq_nil_of_le (by simp [size]), List.nil_append]
          rw [show i * size t + size t - (zeroCells t).length = i * size t by simp [size]]
          exact ihn i (by omega)
    rw [this]
    exact ih
  | pair a b iha ihb => exact ⟨_, _, rfl, iha, ihb⟩
  | embed t => exact ⟨none, rfl, by simp⟩

/-- The pointers of a call lead to memory of the right type. -/
def FrameOk (S : Layout) : Frame → Prop
  | .dec t p => At S p t
  | .store p q rest => ∃ t, At S p t ∧ CellsOk S t (.ptr (some ⟨q, 0⟩) :: rest.map .num)
  | .embed t p q => At S p (.embed t) ∧ S q = some (.block t)
  | .sliceStart t p => At S p (.slice t)
  | .sliceHeader t p old arr len cap =>
    At S p (.slice t) ∧ S arr = some (.block (.array cap t)) ∧ len ≤ cap ∧
      ∀ o : Loc, old = some o → 0 < len ∧ o.off = 0 ∧ ∃ a c, S o.obj = some (.header t a c)
  | .sliceFirst t p hdr => At S p (.slice t) ∧ hdr.off = 0 ∧ ∃ a c, S hdr.obj = some (.header t a c)
  | .grow t p hdr len => At S p (.slice t) ∧ 0 < len ∧ hdr.off = 0 ∧ ∃ a c, S hdr.obj = some (.header t a c)
  | .copy t p old hdr len =>
    At S p (.slice t) ∧ 0 < len ∧ (old.off = 0 ∧ ∃ a c, S old.obj = some (.header t a c)) ∧
      hdr.off = 0 ∧ ∃ a c, S hdr.obj = some (.header t a c) ∧ len ≤ c
  | .child t p hdr len => At S p (.slice t) ∧ 0 < len ∧ hdr.off = 0 ∧ ∃ a c, S hdr.obj = some (.header t a c) ∧ len ≤ c
  | .sliceNext t p hdr _ => At S p (.slice t) ∧ hdr.off = 0 ∧ ∃ a c, S hdr.obj = some (.header t a c)
  | .sliceEnd p hdr => ∃ t, At S p (.slice t) ∧ hdr.off = 0 ∧ ∃ a c, S hdr.obj = some (.header t a c)
  | .mapStore t p m => At S p (.map t) ∧ S m = some (.table t)
  | .mapFirst t p | .mapKey t p | .mapNext t p => At S p (.map t)
  | .mapAssign t p _ q => At S p (.map t) ∧ S q = some (.block t)
  | .array n t p i => i ≤ n ∧ At S p (.array n t)
  | .fields a b p => At S p (.pair a b)

theorem FrameOk.mono {S S' : Layout} (hs : S.Sub S') {f : Frame} (h : FrameOk S f) : FrameOk S' f := by
  cases f with
  | dec t p => exact At.mono hs h
  | store p q rest => obtain ⟨t, h1, h2⟩ := h; exact ⟨t, h1.mono hs, h2.mono hs⟩
  | embed t p q => exact ⟨h.1.mono hs, hs _ _ h.2⟩
  | sliceStart t p => exact At.mono hs h
  | sliceHeader t p old arr len cap =>
    refine ⟨h.1.mono hs, hs _ _ h.2.1, h.2.2.1, fun o ho => ?_⟩
    obtain ⟨h1, h2, a, c, h3⟩ := h.2.2.2 o ho
    exact ⟨h1, h2, a, c, hs _ _ h3⟩
  | sliceFirst t p hdr => obtain ⟨h1, h2, a, c, h3⟩ := h; exact ⟨h1.mono hs, h2, a, c, hs _ _ h3⟩
  | grow t p hdr len => obtain ⟨h1, h0, h2, a, c, h3⟩ := h; exact ⟨h1.mono hs, h0, h2, a, c, hs _ _ h3⟩
  | copy t p old hdr len =>
    obtain ⟨h1, h0, ⟨h2, a, c, h3⟩, h4, a', c', h5, h6⟩ := h
    exact ⟨h1.mono hs, h0, ⟨h2, a, c, hs _ _ h3⟩, h4, a', c', hs _ _ h5, h6⟩
  | child t p hdr len => obtain ⟨h1, h0, h2, a, c, h3, h4⟩ := h; exact ⟨h1.mono hs, h0, h2, a, c, hs _ _ h3, h4⟩
  | sliceNext t p hdr len => obtain ⟨h1, h2, a, c, h3⟩ := h; exact ⟨h1.mono hs, h2, a, c, hs _ _ h3⟩
  | sliceEnd p hdr => obtain ⟨t, h1, h2, a, c, h3⟩ := h; exact ⟨t, h1.mono hs, h2, a, c, hs _ _ h3⟩
  | mapStore t p m => exact ⟨h.1.mono hs, hs _ _ h.2⟩
  | mapFirst t p => exact At.mono hs h
  | mapKey t p => exact At.mono hs h
  | mapAssign t p n q => exact ⟨h.1.mono hs, hs _ _ h.2⟩
  | mapNext t p => exact At.mono hs h
  | array n t p i => exact ⟨h.1, h.2.mono hs⟩
  | fields a b p => exact At.mono hs h

/-- `m` does not fault in well-typed memory and leaves it well-typed; the result is as `Q` says. -/
def Ok {α : Type} (k : HeaderKind) (S : Layout) (h : Store) (m : Mem α) (Q : α → Layout → Store → Prop) : Prop :=
  ∃ a h' S', m h = some (a, h') ∧ S.Sub S' ∧ Typed S' k h' ∧ Q a S' h'

variable {k : HeaderKind} {S : Layout} {h : Store}

theorem Layout.Sub.refl : S.Sub S := fun _ _ h => h

theorem Ok.pure {α : Type} {a : α} {Q : α → Layout → Store → Prop} (ht : Typed S k h) (hq : Q a S h) : Ok k S h (Pure.pure a : Mem α) Q :=
  ⟨a, h, S, rfl, .refl, ht, hq⟩

theorem Ok.bind {α β : Type} {m : Mem α} {f : α → Mem β} {R : α → Layout → Store → Prop} {Q : β → Layout → Store → Prop} (hm : Ok k S h m R)
    (hf : ∀ a S' h', S.Sub S' → Typed S' k h' → R a S' h' → Ok k S' h' (f a) Q) : Ok k S h (m >>= f) Q := by
  obtain ⟨a, h', S', e, hs, ht, hr⟩ := hm
  obtain ⟨b, h'', S'', e', hs', ht', hq⟩ := hf a S' h' hs ht hr
  exact ⟨b, h'', S'', by show (Mem.bind m f) h = _; simp [Mem.bind, e, e'], fun o s ho => hs' o s (hs o s ho), ht', hq⟩

theorem bind_apply {α β : Type} (m : Mem α) (f : α → Mem β) (h : Store) : (m >>= f) h = (m h).bind fun r => f r.1 r.2 := rfl

theorem Typed.at {p : Loc} {t : Typ} (ht : Typed S k h) (hp : At S p t) :
    p.obj < h.next ∧ p.off + size t ≤ (h.obj p.obj).cells.length ∧ CellsOk S t (win (h.obj p.obj).cells p.off (size t)) := by
  obtain ⟨T, hs, hi⟩ := hp
  obtain ⟨hn, ho⟩ := ht _ _ hs
  have ho : CellsOk S T _ := ho.1
  refine ⟨hn, ?_, ho.win hi⟩
  rw [ho.length]
  exact hi.fits

theorem Ok.readAll {p : Loc} {t : Typ} (ht : Typed S k h) (hp : At S p t) :
    Ok k S h (Mem.readAll p (size t)) fun cs S' h' => S' = S ∧ h' = h ∧ CellsOk S t cs := by
  obtain ⟨_, hl, hc⟩ := ht.at hp
  exact ⟨_, h, S, by unfold Mem.readAll; rw [if_pos hl]; rfl, .refl, ht, rfl, rfl, hc⟩

theorem Ok.deref {p : Loc} {t : Typ} (ht : Typed S k h) (hp : At S p t) (h1 : size t = 1)
    (hc : ∀ cs, CellsOk S t cs → ∃ a, cs = [.ptr a]) :
    Ok k S h (Mem.deref p) fun a S' h' => S' = S ∧ h' = h ∧ CellsOk S t [.ptr a] ∧ (h.obj p.obj).cells[p.off]? = some (.ptr a) := by
  obtain ⟨_, hl, hw⟩ := ht.at hp
  obtain ⟨a, ha⟩ := hc _ hw
  have hg : (h.obj p.obj).cells[p.off]? = some (.ptr a) := by
    have := getElem?_win (h.obj p.obj).cells p.off (size t) 0
    rw [ha] at this
    simpa [h1] using this.symm
  refine ⟨a, h, S, ?_, .refl, ht, rfl, rfl, ha ▸ hw, hg⟩
  unfold Mem.deref
  rw [bind_apply, show Mem.read p h = some (.ptr a, h) by simp [Mem.read, hg]]
  rfl

theorem Typed.put {o : Nat} {s : Shape} {x : Obj} (ht : Typed S k h) (hs : S o = some s) (hx : ObjOk S k s x) : Typed S k (Mem.put h o x) := by
  intro i s' hi
  obtain ⟨hn, ho⟩ := ht i s' hi
  refine ⟨hn, ?_⟩
  simp only [Mem.put]
  split
  · next e =>
    subst e
    rw [hs] at hi
    cases hi
    exact hx
  · exact ho

theorem Ok.write {p : Loc} {t : Typ} {cs : List Cell} (ht : Typed S k h) (hp : At S p t) (hc : CellsOk S t cs) :
    Ok k S h (Mem.write p cs) fun _ S' h' => S' = S ∧ (h'.obj p.obj).cells = patch (h.obj p.obj).cells p.off cs := by
  obtain ⟨_, hl, _⟩ := ht.at hp
  obtain ⟨T, hs, hi⟩ := hp
  have hl' : p.off + cs.length ≤ (h.obj p.obj).cells.length := by rw [hc.length]; exact hl
  refine ⟨(), _, S, by unfold Mem.write; dsimp only; rw [if_pos hl'], .refl, ht.put hs ?_, rfl, ?_⟩
  · exact ⟨CellsOk.patch hi (ht _ _ hs).2.1 hc, (ht _ _ hs).2.2⟩
  · simp [Mem.put, patch]

theorem Ok.alloc {x : Obj} {s : Shape} (ht : Typed S k h) (hx : ∀ S' : Layout, S.Sub S' → ObjOk S' k s x) :
    Ok k S h (Mem.alloc x) fun o S' h' => S' o = some s ∧ o = h.next ∧ h'.obj o = x ∧ ∀ i, i < h.next → h'.obj i = h.obj i := by
  have hs : S.Sub fun i => if i = h.next then some s else S i := by
    intro i s' hi
    have := (ht i s' hi).1
    dsimp only
    rw [if_neg (by omega)]
    exact hi
  refine ⟨h.next, _, fun i => if i = h.next then some s else S i, rfl, hs, ?_, by simp, rfl, by simp, ?_⟩
  · intro i s' hi
    dsimp only at hi ⊢
    split at hi
    · next e =>
      subst e
      cases hi
      rw [if_pos rfl]
      exact ⟨Nat.lt_succ_self _, hx _ hs⟩
    · next e =>
      rw [if_neg e]
      exact ⟨Nat.lt_succ_of_lt (ht i s' hi).1, (ht i s' hi).2.mono hs⟩
  · intro i hi
    dsimp only
    rw [if_neg (by omega)]

theorem Ok.readHeader {p : Loc} {t : Typ} {a c : Nat} (ht : Typed S k h) (h0 : p.off = 0) (hs : S p.obj = some (.header t a c)) :
    Ok k S h (readHeader k p) fun x S' h' => S' = S ∧ h' = h ∧ x.data = some ⟨a, 0⟩ ∧ x.cap = c ∧ x.len ≤ c ∧
      S a = some (.block (.array c t)) := by
  obtain ⟨_, l, hx, hl, ha⟩ := ht _ _ hs
  refine ⟨⟨some ⟨a, 0⟩, l, c⟩, h, S, ?_, .refl, ht, rfl, rfl, rfl, rfl, hl, ha⟩
  unfold Gc.readHeader
  have : Mem.readAll p 3 h = some ([k.cell (some ⟨a, 0⟩), .num l, .num c], h) := by
    unfold Mem.readAll
    rw [hx, h0]
    rfl
  rw [bind_apply, this]
  cases k <;> rfl

theorem growCap_go_le (cap len fuel : Nat) (hc : 0 < cap) (hf : len ≤ cap + fuel) : len ≤ growCap.go cap len fuel := by
  induction fuel generalizing cap with
  | zero => simpa [growCap.go] using hf
  | succ fuel ih =>
    unfold growCap.go
    split
    · apply ih
      · split <;> omega
      · split <;> omega
    · omega

theorem le_growCap (cap len : Nat) : len ≤ growCap cap len := by
  unfold growCap
  split
  · exact Nat.le_refl _
  · exact growCap_go_le cap len len (by omega) (by omega)

/-- Where the map is that a call works on. -/
def Frame.mapAt : Frame → Option Loc
  | .mapFirst _ p | .mapKey _ p | .mapNext _ p | .mapAssign _ p _ _ => some p
  | _ => none

/-- There is a pointer at `p`, which is not nil. -/
def NotNil (h : Store) (p : Loc) : Prop := ∃ m, (h.obj p.obj).cells[p.off]? = some (.ptr (some m))

/-- What is to do after a step: the pointers lead to memory of the right type; and a map that is worked on is there, and whoever is
called before the work goes on gets a new zero value. -/
structure Next (h0 : Store) (fs : List Frame) (S : Layout) (h : Store) : Prop where
  ok : ∀ f ∈ fs, FrameOk S f
  map : ∀ f ∈ fs, ∀ p, f.mapAt = some p → NotNil h p
  alone : ∀ up f down p, fs = up ++ f :: down → f.mapAt = some p →
    up = [] ∨ ∃ t, up = [.dec t ⟨h0.next, 0⟩] ∧ h.obj h0.next = ⟨zeroCells t, []⟩ ∧ p.obj < h0.next

theorem Next.nil {h0 : Store} : Next h0 [] S h := ⟨by simp, by simp, by simp⟩

theorem Next.one {h0 : Store} {f : Frame} (h1 : FrameOk S f) (h2 : ∀ p, f.mapAt = some p → NotNil h p) : Next h0 [f] S h := by
  refine ⟨by simpa using h1, by simpa using h2, ?_⟩
  intro up g down p e hg
  left
  cases up with
  | nil => rfl
  | cons u up => simp at e

theorem Next.two {h0 : Store} {f g : Frame} (h1 : FrameOk S f) (h2 : FrameOk S g) (hf : f.mapAt = none) (hg : g.mapAt = none) :
    Next h0 [f, g] S h := by
  refine ⟨by simp [h1, h2], by simp [hf, hg], ?_⟩
  intro up x down p e hx
  have : x ∈ [f, g] := by rw [e]; simp
  rcases List.mem_cons.1 this with rfl | h
  · rw [hf] at hx; cases hx
  · rw [List.mem_singleton.1 h, hg] at hx; cases hx

theorem Ok.writing {p : Loc} {t : Typ} {cs : List Cell} {α : Type} {a : α} {Q : α → Layout → Store → Prop} (ht : Typed S k h)
    (hp : At S p t) (hc : CellsOk S t cs)
    (hq : ∀ h' : Store, (h'.obj p.obj).cells = patch (h.obj p.obj).cells p.off cs → Q a S h') :
    Ok k S h (Mem.write p cs >>= fun _ => Pure.pure a) Q := by
  refine Ok.bind (Ok.write ht hp hc) ?_
  rintro _ S' h' _ ht' ⟨rfl, he⟩
  exact Ok.pure ht' (hq h' he)

theorem Ok.allocating {x : Obj} {s : Shape} {α : Type} {f : Nat → α} {Q : α → Layout → Store → Prop} (ht : Typed S k h)
    (hx : ∀ S' : Layout, S.Sub S' → ObjOk S' k s x)
    (hq : ∀ (S' : Layout) (h' : Store), S.Sub S' → S' h.next = some s → h'.obj h.next = x → (∀ i, i < h.next → h'.obj i = h.obj i) →
      Q (f h.next) S' h') :
    Ok k S h (Mem.alloc x >>= fun o => Pure.pure (f o)) Q := by
  refine Ok.bind (Ok.alloc ht hx) ?_
  rintro o S' h' hs ht' ⟨h1, rfl, h2, h3⟩
  exact Ok.pure ht' (hq S' h' hs h1 h2 h3)

theorem step_ok {f : Frame} {e : Event} (ht : Typed S k h) (hf : FrameOk S f) (he : Expected f e)
    (hm : ∀ p, f.mapAt = some p → NotNil h p) : Ok k S h (step k f e) (Next h) := by
  cases f with
  | dec t p =>
    have hf : At S p t := hf
    cases t with
    | leaf =>
      rcases he with rfl | ⟨n, rfl⟩
      · exact Ok.pure ht .nil
      · exact Ok.writing ht hf ⟨n, rfl⟩ fun _ _ => .nil
    | str =>
      rcases he with rfl | ⟨n, rfl⟩
      · exact Ok.pure ht .nil
      · refine Ok.allocating (s := .text) ht (fun _ _ => ⟨n, rfl⟩) ?_
        intro S' h' hs h1 _ _
        refine .one ⟨.str, hf.mono hs, some ⟨h.next, 0⟩, 1, rfl, ?_⟩ (by simp [Frame.mapAt])
        rintro q ⟨⟩
        exact h1
    | ptr t =>
      rcases he with rfl | rfl
      · exact Ok.writing ht hf ⟨none, rfl, by simp⟩ fun _ _ => .nil
      · refine Ok.bind (Ok.deref ht hf rfl (fun cs hc => ⟨_, hc.choose_spec.1⟩)) ?_
        rintro a S' h' _ ht' ⟨rfl, rfl, hc, _⟩
        cases a with
        | some q =>
          obtain ⟨b, e, hc⟩ := hc
          cases e
          exact Ok.pure ht' (.one (hc q rfl) (by simp [Frame.mapAt]))
        | none =>
          refine Ok.allocating (s := .block t) ht' (fun S' _ => ⟨zero_ok S' t, rfl⟩) ?_
          intro S'' h'' hs h1 _ _
          have hq : At S'' ⟨h'.next, 0⟩ t := ⟨t, h1, .self t⟩
          refine .two hq ⟨.ptr t, hf.mono hs, some ⟨h'.next, 0⟩, rfl, ?_⟩ rfl rfl
          rintro q ⟨⟩
          exact hq
    | embed t =>
      cases he
      refine Ok.bind (Ok.deref ht hf rfl (fun cs hc => ⟨_, hc.choose_spec.1⟩)) ?_
      rintro a S' h' _ ht' ⟨rfl, rfl, hc, _⟩
      cases a with
      | some q =>
        obtain ⟨b, e, hc⟩ := hc
        cases e
        exact Ok.pure ht' (.one (hc q rfl) (by simp [Frame.mapAt]))
      | none =>
        refine Ok.allocating (s := .block t) ht' (fun S' _ => ⟨zero_ok S' t, rfl⟩) ?_
        intro S'' h'' hs h1 _ _
        exact .one ⟨hf.mono hs, h1⟩ (by simp [Frame.mapAt])
    | slice t =>
      rcases he with rfl | rfl
      · exact Ok.writing ht hf ⟨none, 0, 0, rfl, by simp⟩ fun _ _ => .nil
      · exact Ok.pure ht (.one hf (by simp [Frame.mapAt]))
    | map t =>
      rcases he with rfl | rfl
      · exact Ok.writing ht hf ⟨none, rfl, by simp⟩ fun _ _ => .nil
      · refine Ok.bind (Ok.deref ht hf rfl (fun cs hc => ⟨_, hc.choose_spec.1⟩)) ?_
        rintro a S' h' _ ht' ⟨rfl, rfl, hc, hg⟩
        cases a with
        | some q =>
          refine Ok.pure ht' (.one hf ?_)
          rintro p ⟨⟩
          exact ⟨q, hg⟩
        | none =>
          refine Ok.allocating (s := .table t) ht' (fun S' _ => ⟨rfl, by intro e he; cases he⟩) ?_
          intro S'' h'' hs h1 _ _
          exact .one ⟨hf.mono hs, h1⟩ (by simp [Frame.mapAt])
    | array n t =>
      rcases he with rfl | rfl
      · exact Ok.pure ht .nil
      · exact Ok.pure ht (.one ⟨Nat.zero_le _, hf⟩ (by simp [Frame.mapAt]))
    | pair a b =>
      rcases he with rfl | rfl
      · exact Ok.pure ht .nil
      · exact Ok.pure ht (.one hf (by simp [Frame.mapAt]))
  | store p q rest =>
    cases he
    obtain ⟨t, hp, hc⟩ := hf
    exact Ok.writing ht hp hc fun _ _ => .nil
  | embed t p q =>
    cases he
    obtain ⟨hp, hq⟩ := hf
    have hq' : At S ⟨q, 0⟩ t := ⟨t, hq, .self t⟩
    refine Ok.writing ht hp ⟨some ⟨q, 0⟩, rfl, ?_⟩ fun _ _ => .one hq' (by simp [Frame.mapAt])
    rintro _ ⟨⟩
    exact hq'
  | sliceStart t p =>
    cases he
    refine Ok.allocating (s := .block (.array 0 t)) ht (fun S' _ => ⟨zero_ok S' (.array 0 t), rfl⟩) ?_
    intro S' h' hs h1 _ _
    exact .one ⟨At.mono hs hf, h1, Nat.le_refl _, by simp⟩ (by simp [Frame.mapAt])
  | sliceHeader t p old arr len cap =>
    cases he
    obtain ⟨hp, ha, hl, ho⟩ := hf
    refine Ok.bind (Ok.alloc (s := .header t arr cap) ht fun S' hs => ⟨len, rfl, hl, hs _ _ ha⟩) ?_
    rintro o S' h' hs ht' ⟨h1, _, _, _⟩
    cases old with
    | none => exact Ok.pure ht' (.one ⟨hp.mono hs, rfl, arr, cap, h1⟩ (by simp [Frame.mapAt]))
    | some old =>
      obtain ⟨h0, hz, a, c, hh⟩ := ho old rfl
      exact Ok.pure ht' (.one ⟨hp.mono hs, h0, ⟨hz, a, c, hs _ _ hh⟩, rfl, arr, cap, h1, hl⟩ (by simp [Frame.mapAt]))
  | sliceFirst t p hdr =>
    rcases he with rfl | rfl
    · exact Ok.pure ht (.one ⟨t, hf⟩ (by simp [Frame.mapAt]))
    · obtain ⟨hp, hz, hh⟩ := hf
      exact Ok.pure ht (.one ⟨hp, Nat.one_pos, hz, hh⟩ (by simp [Frame.mapAt]))
  | grow t p hdr len =>
    cases he
    obtain ⟨hp, h0, hz, a, c, hh⟩ := hf
    refine Ok.bind (Ok.readHeader ht hz hh) ?_
    rintro x S' h' _ ht' ⟨rfl, rfl, hd, rfl, hl, ha⟩
    split
    · next hlt =>
      obtain ⟨_, l, hx, hl', ha'⟩ := ht' _ _ hh
      refine ⟨[.child t p hdr len], _, S', ?_, .refl, ht'.put hh (x := ⟨[k.cell (some ⟨a, 0⟩), .num len, .num x.cap], []⟩)
        ⟨len, rfl, Nat.le_of_lt hlt, ha'⟩, .one ⟨hp, h0, hz, a, x.cap, hh, Nat.le_of_lt hlt⟩ (by simp [Frame.mapAt])⟩
      rw [bind_apply]
      unfold Mem.write
      simp [hx, hz]
      rfl
    · refine Ok.allocating (s := .block (.array (growCap x.cap len) t)) ht' (fun S' _ => ⟨zero_ok S' (.array _ t), rfl⟩) ?_
      intro S'' h'' hs h1 _ _
      refine .one ⟨hp.mono hs, h1, le_growCap _ _, ?_⟩ (by simp [Frame.mapAt])
      rintro o ⟨⟩
      exact ⟨h0, hz, a, x.cap, hs _ _ hh⟩
  | copy t p old hdr len =>
    cases he
    obtain ⟨hp, h0, ⟨hz, a, c, hh⟩, hz', a', c', hh', hl⟩ := hf
    refine Ok.bind (Ok.readHeader ht hz hh) ?_
    rintro x S' h' _ ht ⟨rfl, rfl, hd, rfl, hlx, ha⟩
    refine Ok.bind (Ok.readHeader ht hz' hh') ?_
    rintro y S' h' _ ht ⟨rfl, rfl, hd', rfl, hly, ha'⟩
    have hnext : Next h' [.child t p hdr len] S' h' := .one ⟨hp, h0, hz', a', y.cap, hh', hl⟩ (by simp [Frame.mapAt])
    dsimp only
    split
    · exact Ok.pure ht hnext
    · rw [hd, hd']
      have hs : At S' ⟨a, 0⟩ (.array (min x.len y.len) t) := by
        refine ⟨_, ha, ?_⟩
        have := Inside.part x.cap t 0 (min x.len y.len) (by omega)
        simpa using this
      have hs' : At S' ⟨a', 0⟩ (.array (min x.len y.len) t) := by
        refine ⟨_, ha', ?_⟩
        have := Inside.part y.cap t 0 (min x.len y.len) (by omega)
        simpa using this
      rw [← size_array]
      refine Ok.bind (Ok.readAll ht hs) ?_
      rintro cs S' h' _ ht ⟨rfl, rfl, hc⟩
      exact Ok.writing ht hs' hc fun _ _ => .one ⟨hp, h0, hz', a', y.cap, hh', hl⟩ (by simp [Frame.mapAt])
  | child t p hdr len =>
    cases he
    obtain ⟨hp, h0, hz, a, c, hh, hl⟩ := hf
    refine Ok.bind (Ok.readHeader ht hz hh) ?_
    rintro x S' h' _ ht ⟨rfl, rfl, hd, rfl, hlx, ha⟩
    rw [hd]
    refine Ok.pure ht (.two ?_ ⟨hp, hz, a, x.cap, hh⟩ rfl rfl)
    refine ⟨_, ha, ?_⟩
    have := Inside.elem x.cap t (len - 1) 0 t (by omega) (.self t)
    simpa using this
  | sliceNext t p hdr len =>
    rcases he with rfl | rfl
    · exact Ok.pure ht (.one ⟨t, hf⟩ (by simp [Frame.mapAt]))
    · obtain ⟨hp, hz, hh⟩ := hf
      exact Ok.pure ht (.one ⟨hp, Nat.succ_pos _, hz, hh⟩ (by simp [Frame.mapAt]))
  | sliceEnd p hdr =>
    cases he
    obtain ⟨t, hp, hz, a, c, hh⟩ := hf
    refine Ok.bind (Ok.readHeader ht hz hh) ?_
    rintro x S' h' _ ht ⟨rfl, rfl, hd, rfl, hlx, ha⟩
    refine Ok.writing ht hp ⟨some ⟨a, 0⟩, x.len, x.cap, by rw [hd], hlx, by simp, ?_⟩ fun _ _ => .nil
    rintro q ⟨⟩
    exact ⟨_, ha, .self _⟩
  | mapStore t p m =>
    cases he
    obtain ⟨hp, hs⟩ := hf
    refine Ok.writing ht hp ⟨some ⟨m, 0⟩, rfl, ?_⟩ ?_
    · rintro q ⟨⟩
      exact hs
    · intro h' hc
      refine .one hp ?_
      rintro q ⟨⟩
      refine ⟨⟨m, 0⟩, ?_⟩
      have hl : p.off + 1 ≤ _ := (ht.at hp).2.1
      rw [hc, getElem?_patch (by simpa using hl)]
      simp
  | mapFirst t p =>
    rcases he with rfl | rfl
    · exact Ok.pure ht .nil
    · exact Ok.pure ht (.one hf hm)
  | mapKey t p =>
    obtain ⟨n, rfl⟩ := he
    refine Ok.allocating (s := .block t) ht (fun S' _ => ⟨zero_ok S' t, rfl⟩) ?_
    intro S' h' hs h1 h2 h3
    have hp : At S p (.map t) := hf
    have hn := (ht.at hp).1
    refine ⟨?_, ?_, ?_⟩
    · simp only [List.mem_cons, List.not_mem_nil, or_false, forall_eq_or_imp, forall_eq]
      exact ⟨⟨t, h1, .self t⟩, hp.mono hs, h1⟩
    · simp only [List.mem_cons, List.not_mem_nil, or_false, forall_eq_or_imp, forall_eq]
      refine ⟨by simp [Frame.mapAt], ?_⟩
      rintro q ⟨⟩
      obtain ⟨m, hm⟩ := hm p rfl
      exact ⟨m, by rw [h3 _ hn]; exact hm⟩
    · intro up g down q e hg
      right
      cases up with
      | nil =>
        simp only [List.nil_append, List.cons.injEq] at e
        rw [← e.1] at hg
        simp [Frame.mapAt] at hg
      | cons u up =>
        cases up with
        | nil =>
          simp only [List.cons_append, List.nil_append, List.cons.injEq] at e
          rw [← e.2.1] at hg
          cases hg
          exact ⟨t, by rw [e.1], h2, hn⟩
        | cons v up => simp at e
  | mapAssign t p n q =>
    cases he
    obtain ⟨hp, hq⟩ := hf
    refine Ok.bind (Ok.deref ht hp rfl (fun cs hc => ⟨_, hc.choose_spec.1⟩)) ?_
    rintro a S' h' _ ht ⟨rfl, rfl, hc, hg⟩
    obtain ⟨m, hm⟩ := hm p rfl
    rw [hm] at hg
    cases hg
    obtain ⟨b, e, hc⟩ := hc
    cases e
    have hS := hc m rfl
    refine Ok.bind (Ok.readAll ht (p := ⟨q, 0⟩) ⟨t, hq, .self t⟩) ?_
    rintro cs S' h' _ ht ⟨rfl, rfl, hcs⟩
    refine ⟨_, _, S', rfl, .refl, ht.put hS ?_, .one hp ?_⟩
    · refine ⟨(ht _ _ hS).2.1, ?_⟩
      intro e he
      rcases mem_setKey he with rfl | he
      · exact hcs
      · exact (ht _ _ hS).2.2 e he
    · rintro r ⟨⟩
      refine ⟨m, ?_⟩
      simp only [Mem.put]
      split
      · next e => rw [← e]; exact hm
      · exact hm
  | mapNext t p =>
    rcases he with rfl | rfl
    · exact Ok.pure ht .nil
    · exact Ok.pure ht (.one hf hm)
  | array n t p i =>
    obtain ⟨hi, hp⟩ := hf
    rcases he with rfl | he
    · refine Ok.writing (t := .array (n - i) t) ht ?_ (zero_ok S (.array (n - i) t)) fun _ _ => .nil
      exact At.inside hp (.part n t i (n - i) (by omega))
    · split at he
      · next hlt =>
        subst he
        show Ok k S h (if i < n then _ else _) _
        rw [if_pos hlt]
        refine Ok.pure ht (.two ?_ ⟨hlt, hp⟩ rfl rfl)
        have := At.inside hp (.elem n t i 0 t hlt (.self t))
        exact (by simpa using this : At S ⟨p.obj, p.off + i * size t⟩ t)
      · next hge =>
        subst he
        show Ok k S h (if i < n then _ else _) _
        rw [if_neg hge]
        exact Ok.pure ht (.one ⟨hi, hp⟩ (by simp [Frame.mapAt]))
  | fields a b p =>
    have hf : At S p (.pair a b) := hf
    have ha : At S p a := by simpa using At.inside hf (.fst a b 0 a (.self a))
    have hb : At S ⟨p.obj, p.off + size a⟩ b := by simpa using At.inside hf (.snd a b 0 b (.self b))
    rcases he with rfl | rfl | rfl | rfl
    · exact Ok.pure ht .nil
    · exact Ok.pure ht (.two ha hf rfl rfl)
    · exact Ok.pure ht (.two hb hf rfl rfl)
    · exact Ok.pure ht (.one hf (by simp [Frame.mapAt]))

/-- Whoever is called before the work on a map goes on cannot get to that map: it uses objects of a set that does not contain it. -/
def Guarded (k : HeaderKind) (h : Store) (up : List Frame) (p : Loc) : Prop :=
  NotNil h p ∧ p.obj < h.next ∧ (up ≠ [] → ∃ P, ¬ P p.obj ∧ Fits true k up P ∧ Agree true P h h)

/-- Invariant of decoding. -/
structure Inv (S : Layout) (k : HeaderKind) (s : State) : Prop where
  typed : Typed S k s.store
  frames : ∀ f ∈ s.frames, FrameOk S f
  guarded : ∀ up f down p, s.frames = up ++ f :: down → f.mapAt = some p → Guarded k s.store up p

theorem Fits.append {r : Bool} {k : HeaderKind} {fs gs : List Frame} {P : Nat → Prop} (h : Fits r k fs P) (h' : Fits r k gs P) :
    Fits r k (fs ++ gs) P := by
  intro f hf
  rcases List.mem_append.1 hf with hf | hf
  · exact h f hf
  · exact h' f hf

theorem split_append {α : Type} {a b up down : List α} {f : α} (h : a ++ b = up ++ f :: down) :
    (∃ x, a = up ++ f :: x ∧ down = x ++ b) ∨ ∃ x, up = a ++ x ∧ b = x ++ f :: down := by
  rcases List.append_eq_append_iff.1 h with ⟨x, h1, h2⟩ | ⟨x, h1, h2⟩
  · exact .inr ⟨x, h1, h2⟩
  · cases x with
    | nil => exact .inr ⟨[], by simpa using h1.symm, by simpa using h2.symm⟩
    | cons y x =>
      simp only [List.cons_append, List.cons.injEq] at h2
      exact .inl ⟨x, by rw [h1, h2.1], h2.2⟩

theorem mapAt_lt {f : Frame} {p : Loc} (ht : Typed S k h) (hf : FrameOk S f) (hp : f.mapAt = some p) : p.obj < h.next := by
  cases f with
  | mapFirst t q => cases hp; exact (ht.at hf).1
  | mapKey t q => cases hp; exact (ht.at hf).1
  | mapNext t q => cases hp; exact (ht.at hf).1
  | mapAssign t q n m => cases hp; exact (ht.at hf.1).1
  | _ => cases hp

theorem inv_step {f : Frame} {fs : List Frame} {base : List Nat} {e : Event} (hi : Inv S k ⟨f :: fs, base, h⟩) (he : Expected f e) :
    ∃ fs' h' S', step k f e h = some (fs', h') ∧ S.Sub S' ∧ Inv S' k ⟨fs' ++ fs, base, h'⟩ := by
  obtain ⟨ht, hf, hg⟩ := hi
  have hm : ∀ p, f.mapAt = some p → NotNil h p := fun p hp => (hg [] f fs p rfl hp).1
  obtain ⟨fs', h', S', hstep, hs, ht', hn⟩ := step_ok ht (hf f List.mem_cons_self) he hm
  refine ⟨fs', h', S', hstep, hs, ht', ?_, ?_⟩
  · intro g hg
    rcases List.mem_append.1 hg with hg | hg
    · exact hn.ok g hg
    · exact (hf g (List.mem_cons_of_mem _ hg)).mono hs
  · intro up g down p he hp
    rcases split_append he with ⟨x, h1, _⟩ | ⟨x, h1, h2⟩
    · -- a new call
      have hg' : g ∈ fs' := by rw [h1]; simp
      have hlt := mapAt_lt ht' (hn.ok g hg') hp
      refine ⟨hn.map g hg' p hp, hlt, fun hne => ?_⟩
      rcases hn.alone up g x p h1 hp with rfl | ⟨t, rfl, hz, hlt0⟩
      · exact absurd rfl hne
      · refine ⟨fun o => o = h.next, ?_, ?_, ?_⟩
        · exact Nat.ne_of_lt hlt0
        · intro f hf
          rw [List.mem_singleton.1 hf]
          refine ⟨.inl rfl, ?_⟩
          simp [Frame.liveR, Frame.live]
        · refine ⟨rfl, fun _ _ => rfl, ?_, ?_⟩
          · rintro o rfl o' ho'
            rw [hz] at ho'
            exact absurd (refs_cells (P := fun _ => False) (zeroCells_in t) o' ho') id
          · rintro o rfl
            exact (ht'.at (hn.ok (.dec t ⟨h.next, 0⟩) (by rw [h1]; simp))).1
    · -- a call that goes on later
      have h2 : fs = x ++ g :: down := h2
      obtain ⟨⟨m, hm'⟩, hlt, hP⟩ := hg (f :: x) g down p (by rw [h2]; rfl) hp
      obtain ⟨P, hnP, hF, hA⟩ := hP (by simp)
      have hF0 := hF f List.mem_cons_self
      rcases step_coh (e := e) hF0.1 hF0.2 h h hA with ⟨e1, _⟩ | ⟨gs, n1, n2, P', e1, e2, hst, ha', hq⟩
      · rw [e1] at hstep; cases hstep
      · rw [e1] at hstep
        cases hstep
        have e3 := e1.symm.trans e2
        cases e3
        have hnP' : ¬ P' p.obj := by
          intro hp'
          rcases hst.new _ hp' with h | h
          · exact hnP h
          · exact absurd hlt (Nat.not_lt.2 h)
        refine ⟨⟨m, by rw [hst.outside _ hnP']; exact hm'⟩, Nat.lt_of_lt_of_le hlt hst.next, fun _ => ⟨P', hnP', ?_, ha'⟩⟩
        rw [h1]
        refine Fits.append hq ?_
        intro y hy
        exact ⟨(hF y (List.mem_cons_of_mem _ hy)).1, fun o ho => hst.sub o ((hF y (List.mem_cons_of_mem _ hy)).2 o ho)⟩

end Jzon.Gc
