import Verif.Proof.Iface
import Verif.Props.Eface

/-!
# C51: decoding into interfaces with methods
-/

set_option linter.unusedSimpArgs false

namespace Jzon.Props

open Spec Jzon

variable {F : Type} {Γ : TyEnv F} {cfg : DecCfg F} {pools : Pools}

/-- The variable `a` has an interface type with methods and the content `o`. -/
def MethodIface (m : Mem F) (a : Nat) (o : Cell F) : Prop :=
  m[a]? = some o ∧ (o = .ifcNil ∨ (∃ n, o = .ifcNilData n) ∨ (∃ n, o = .ifcOther n) ∨ ∃ k b, o = .ifcPtr k b)

theorem decodeVar_iface {m : Mem F} {a : Nat} {o : Cell F} (h : MethodIface m a o) (n : Nat) (s : EIt) :
    decodeVar Γ cfg pools (n + 1) m a s = decodeIfaceStep (decodeVar Γ cfg pools n) m a o s := by
  obtain ⟨hm, rfl | ⟨_, rfl⟩ | ⟨_, rfl⟩ | ⟨_, _, rfl⟩⟩ := h <;> simp only [decodeVar, decodeVarStep, hm]

/-- **C51** for null: the interface becomes nil, whatever it holds; no other variable changes and the text behind null is left. -/
theorem C51_null {m : Mem F} {a : Nat} {o : Cell F} {s : EIt} {l w r : List Byte} {e : Err} (hm : MethodIface m a o)
    (hu : Unread s.it l e) (hw : Ws w) (hl : l = w ++ (nullText ++ r)) (n : Nat) :
    ∃ s', decodeVar Γ cfg pools (n + 1) m a s = (.ok (m.set a .ifcNil), s') ∧ Unread s'.it r e := by
  have hr : Runs (token fun c => if c = b! 'n' then .take else .leave) s.it.env l 0x6E (ull ++ r) :=
    runs_token'.mpr ⟨w, ull ++ r, hw, by decide, hl, .inl ⟨by decide, rfl⟩⟩
  obtain ⟨it1, h1, h2⟩ := runM_of_runs hu hr
  obtain ⟨it2, h3, h4⟩ := runM_of_runs h2 ((runs_nullThen (v := m.set a .ifcNil)).mpr ⟨rfl, rfl⟩)
  rw [decodeVar_iface hm]
  simp only [decodeIfaceStep, h1, if_pos (show (0x6E : Byte) = b! 'n' from rfl)]
  refine ⟨{ s with it := it2 }, ?_, h4⟩
  unfold EIt.run
  rw [if_pos trivial, h3]

/-- The error for a value other than null and an interface with methods that does not hold a pointer to a variable. -/
def ifaceError : Cell F → Option Err
  | .ifcNil => some .emptyIFace
  | .ifcNilData _ => some .nilPointerReceiver
  | .ifcOther _ => some .pointerReceiver
  | _ => none

/-- **C51** for a value other than null and an interface that is nil, holds a nil pointer or something that is not a pointer: the
error says which, and the value is left unread. -/
theorem C51_error {m : Mem F} {a : Nat} {o : Cell F} {x : Err} {s : EIt} {l w r : List Byte} {c : Byte} {e : Err}
    (hm : MethodIface m a o) (ho : ifaceError o = some x) (hu : Unread s.it l e) (ht : Token l w c r) (hn : c ≠ b! 'n') (n : Nat) :
    ∃ s', decodeVar Γ cfg pools (n + 1) m a s = (.err x, s') ∧ Unread s'.it (c :: r) e := by
  obtain ⟨it1, h1, h2, _⟩ := token_leave hu ht hn
  refine ⟨{ s with it := it1 }, ?_, h2⟩
  rw [decodeVar_iface hm]
  simp only [decodeIfaceStep, h1, if_neg hn]
  cases o <;> simp [ifaceError] at ho <;> subst ho <;> rfl

/-- **C51** for a value other than null and a nil pointer to such an interface: the new interface is nil, so the value is refused. -/
theorem C51_new {m : Mem F} {a : Nat} {s : EIt} {l w r : List Byte} {c : Byte} {e : Err} (hm : m[a]? = some (.ptr .iface none))
    (hu : Unread s.it l e) (ht : Token l w c r) (hn : c ≠ b! 'n') (n : Nat) :
    ∃ s', decodeVar Γ cfg pools (n + 2) m a s = (.err .emptyIFace, s') ∧ Unread s'.it (c :: r) e := by
  obtain ⟨it1, h1, h2, _⟩ := token_leave hu ht hn
  have hz : MethodIface (m ++ [zeroCell Γ cfg .iface]) m.length .ifcNil := ⟨by simp [zeroCell], .inl rfl⟩
  obtain ⟨s', h3, h4⟩ := C51_error (Γ := Γ) (cfg := cfg) (pools := pools) (s := { s with it := it1 }) hz rfl h2 (w := []) ⟨by simp [Ws], ht.2.1, rfl⟩ hn n
  refine ⟨s', ?_, h4⟩
  have h5 : decodeVar Γ cfg pools (n + 2) m a s = decodeVarStep Γ cfg pools (decodeVar Γ cfg pools (n + 1)) m a s := rfl
  rw [h5]
  simp only [decodeVarStep, hm, h1, if_neg hn, h3]

/-- **C51** when the input ends before a value begins: the error of the reader is returned. -/
theorem C51_end {m : Mem F} {a : Nat} {o : Cell F} {s : EIt} {l : List Byte} {e : Err}
    (hm : MethodIface m a o) (hu : Unread s.it l e) (hl : Ws l) (n : Nat) :
    ∃ s', decodeVar Γ cfg pools (n + 1) m a s = (.err e, s') := by
  cases ht : (token fun c => if c = b! 'n' then .take else .leave).runM s.it with
  | mk x it =>
    cases x with
    | ok c =>
      obtain ⟨w, r, _, h2, h3⟩ := token_of_run hu ht
      exact absurd (fun d hd => hl d (by simp at hd; simp [h3, hd])) h2
    | error x =>
      refine ⟨{ s with it := it }, ?_⟩
      rw [decodeVar_iface hm]
      simp only [decodeIfaceStep, ht]
      obtain ⟨h1, _⟩ := runM_error hu ht
      unfold token at h1
      simp only [Prog.runF, Op.runF, dropWs_eq_nil.mpr hl] at h1
      simp at h1
      rw [← h1, show s.it.env.endErr = e from (unread_iff.mp hu).2.2]

/-- **C51** for pointers: let the pointers lead from `a`, through pointer variables and interfaces of both kinds, to the variable
`z` of another type.  Decoding a value other than null into `a` is decoding it into `z`: with the same result, the same error, and
the same input left over.  No other variable changes. -/
theorem C51_value {m : Mem F} {k a z : Nat} {t : Ty} {v : Val F} {s : EIt} {l w r : List Byte} {c : Byte} {e : Err}
    (h : Leads m (k + 1) a z) (hz : m[z]? = some (.leaf t v)) (hu : Unread s.it l e) (hf : Fresh s) (ht : Token l w c r)
    (hn : c ≠ b! 'n') :
    ∃ it1, Unread it1 (c :: r) e ∧ it1.offset + it1.head = s.it.offset + s.it.head + w.length ∧
      ∀ n, k + 1 < n → ∃ last, decodeVar Γ cfg pools n m a s = match (ReadVal Γ cfg pools t v).runM it1 with
        | (.ok v', it') => (.ok (m.set z (.leaf t v')), ⟨it', last⟩)
        | (.error x, it') => (.err x, ⟨it', last⟩) := by
  obtain ⟨b, hp, hb⟩ := leads_inv h
  obtain ⟨s1, x, f, h1, h2, h3, h4⟩ := decodeVar_first (Γ := Γ) (cfg := cfg) (pools := pools) hu hf ht hn hp
  obtain ⟨s', x', h5, h6⟩ := decodeVar_leaf (Γ := Γ) (cfg := cfg) (pools := pools) hb hz h1 ht.2.1 hn (by
    intro y hy
    rcases h2 with ⟨_, _, h2⟩ | ⟨_, h2⟩
    · rw [h2] at hy
      cases hy
      exact fun j hj => no_cycle h (leaf_points hz) ⟨j, .step hp hj⟩
    · rw [h2] at hy; cases hy)
  refine ⟨s'.it, h5.unread, h5.pos, fun n hn' => ⟨s'.last, ?_⟩⟩
  obtain ⟨n, rfl⟩ : ∃ j, n = j + 1 := ⟨n - 1, by omega⟩
  have haz : a ≠ z := by
    rintro rfl
    exact leaf_points hz b hp
  rw [h4, h6 n (by omega), back_run (fun v => h3 _ (by rw [List.getElem?_set_ne (Ne.symm haz)])), run_eq]
  cases (ReadVal Γ cfg pools t v).runM s'.it with
  | mk x it => cases x <;> rfl

/-- C51 for `Unmarshal` and texts without white space before the value: `Unmarshal` into the interface and `Unmarshal` into the
variable that its pointers lead to have the same result. -/
theorem C51_unmarshal {m : Mem F} {k a z : Nat} {t : Ty} {v : Val F} {s : EIt} {c : Byte} {data : List Byte}
    (h : Leads m (k + 1) a z) (hz : m[z]? = some (.leaf t v)) (hc : ¬Ws [c]) (hn : c ≠ b! 'n') {n : Nat} (hk : k + 1 < n) :
    UnmarshalVar Γ cfg pools n s (c :: data) m a = match Unmarshal Γ cfg pools s.it (c :: data) t v with
      | .ok v' => .ok (m.set z (.leaf t v'))
      | .error x => .err x := by
  obtain ⟨it1, h1, h2, h3⟩ := C51_value (Γ := Γ) (cfg := cfg) (pools := pools) (s := s.resetBytes (c :: data)) (w := []) (c := c)
    (r := data) h hz (unread_bytes s.it (c :: data)) (by intro p q h; cases h) ⟨by simp [Ws], hc, rfl⟩ hn
  obtain ⟨last, h3⟩ := h3 n hk
  have h4 := runM_same (p := unmarshalProg Γ cfg pools t v) h1 (unread_bytes s.it (c :: data)) h2
  unfold UnmarshalVar Unmarshal
  rw [← h4, h3, show unmarshalProg Γ cfg pools t v = (ReadVal Γ cfg pools t v).bind _ from rfl, runM_bind]
  cases (ReadVal Γ cfg pools t v).runM it1 with
  | mk x it' =>
    cases x with
    | error x => rfl
    | ok v' =>
      simp only
      rw [show ∀ (q : Option Byte → Prog (Val F)), (do let o ← tokenEOF; q o : Prog (Val F)) = tokenEOF.bind q from fun _ => rfl, runM_bind]
      cases tokenEOF.runM it' with
      | mk y it2 =>
        cases y with
        | error y => rfl
        | ok y => cases y <;> rfl

/-! ## Concrete cases -/

/-- `var r Reader = &b`, `var p = &r`, `var b bool`. -/
def throughMethods : Mem (List Byte) := [.ptr .iface (some 1), .ifcPtr (.leaf .bool) 2, .leaf .bool (.bool false)]

example : MethodIface throughMethods 1 (.ifcPtr (.leaf .bool) 2) := ⟨rfl, by simp⟩

example : Leads throughMethods 2 0 2 :=
  .step (.inr (.inl ⟨_, rfl⟩)) (.step (.inr (.inr ⟨_, rfl⟩)) (.here 2))

/-- `true` arrives in `b`. -/
example : UnmarshalVar sampleEnv sampleCfg samplePools 3 ⟨sampleIt, none⟩ (bs! "true") throughMethods 0 =
    .ok [.ptr .iface (some 1), .ifcPtr (.leaf .bool) 2, .leaf .bool (.bool true)] := rfl

/-- `null` makes the pointer nil, not `r`; `null` for `r` makes it nil. -/
example : UnmarshalVar sampleEnv sampleCfg samplePools 3 ⟨sampleIt, none⟩ (bs! "null") throughMethods 1 =
    .ok [.ptr .iface (some 1), .ifcNil, .leaf .bool (.bool false)] := rfl

example : ifaceError (F := List Byte) .ifcNil = some .emptyIFace := rfl

/-- A new interface behind a nil pointer is nil, so that only null can be decoded. -/
example : UnmarshalVar sampleEnv sampleCfg samplePools 3 ⟨sampleIt, none⟩ (bs! "{}") [.ptr .iface none] 0 = .err .emptyIFace := rfl

end Jzon.Props
