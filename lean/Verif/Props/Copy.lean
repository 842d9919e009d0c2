import Verif.Proof.Copy
import Verif.Props.Str

/-!
# C12, C13: the copying loops

`Verif.Model.Copy` models the loops of the string and float readers with their indices into the buffer, their slices and the scratch
buffer `tmpBuffer` of the iterator, whatever an earlier call left in it.
-/

set_option linter.unusedSimpArgs false

namespace Jzon.Props

open Spec

theorem inv_of_unread {it : It} {l : List Byte} {e : Err} (h : Unread it l e) : it.Inv := (unread_iff.mp h).1

/-- **C13.** The index loops of the code do exactly what the byte-wise model does, also when they fail, and never index out of range. -/
theorem C13_copy_eq {it : It} {l tmp : List Byte} {e : Err} (h : Unread it l e) :
    copyString l.length tmp it = readStringAsSlice.runM it := by
  have hl : it.rem = l := (unread_iff.mp h).2.1
  rw [copyString_eq _ _ _ (inv_of_unread h)]
  unfold readStringAsSlice readStringAsSliceSlow
  rw [← hl]
  rfl

/-- **C13.** Reading a string with the index loops of the code, behind the opening quotation mark, gives the bytes the literal denotes
and stops behind the closing quotation mark – whatever the scratch buffer holds, and however the reader cuts the input. -/
theorem C13_copy_loops {it : It} {l s r tmp : List Byte} {e : Err} (h : Unread it l e) :
    (∃ it', copyString l.length tmp it = (.ok s, it') ∧ Unread it' r e) ↔
      ∃ b, Str (0x22 :: b) s ∧ l = b ++ r := by
  rw [C13_copy_eq h, runM_iff h, runs_readString]
  constructor
  · rintro ⟨b, hb, rfl⟩; exact ⟨b ++ [0x22], ⟨b, hb, by simp⟩, by simp⟩
  · rintro ⟨b, ⟨b', hb, he⟩, rfl⟩
    cases he
    exact ⟨b', hb, by simp⟩

/-- **C12.** The same for floats: the index loops of the code hand the literal to the conversion. -/
theorem C12_copy_loops {F : Type} {ops : FloatOps F} (hlaw : Lawful ops) {it : It} {l r tmp : List Byte} {e : Err} {f : F}
    (h : Unread it l e) :
    (∃ it', copyFloat ops tmp it = (.ok f, it') ∧ Unread it' r e) ↔
      ∃ t, Number t ∧ Split e l t r ∧ literal ops t = .ok f := by
  rw [copyFloat_eq ops tmp it (inv_of_unread h)]
  exact C12_readFloat_iff hlaw h

/-- **C12.** … and do exactly what the byte-wise model does. -/
theorem C12_copy_eq {F : Type} (ops : FloatOps F) {it : It} {l tmp : List Byte} {e : Err} (h : Unread it l e) :
    copyFloat ops tmp it = (ReadFloat ops).runM it := copyFloat_eq ops tmp it (inv_of_unread h)

/-- Concrete case: a string with an escape, cut inside the escape, with a scratch buffer in use before. -/
example : Unread ⟨bs! "xab\\", 1, 0, false, some [⟨bs! "nc", none⟩, ⟨[], none⟩, ⟨bs! "d\" ", none⟩]⟩ (bs! "ab\\ncd\" ") .eof ∧
    (copyString 8 (bs! "stale") ⟨bs! "xab\\", 1, 0, false, some [⟨bs! "nc", none⟩, ⟨[], none⟩, ⟨bs! "d\" ", none⟩]⟩).1.toOption =
      some (bs! "ab\ncd") := by
  refine ⟨unread_iff.mpr ⟨⟨by decide, ?_⟩, rfl, rfl⟩, by rfl⟩
  simp [Sticky]

/-- Concrete case: a float in three parts. -/
example : (copyFloat (⟨fun b => .ok b, [], id⟩ : FloatOps (List Byte)) (bs! "stale")
    ⟨bs! " 12", 0, 0, false, some [⟨bs! "3.", none⟩, ⟨bs! "5e", none⟩, ⟨bs! "7,", none⟩]⟩).1.toOption = some (bs! "123.5e7") := by rfl

end Jzon.Props
