import Verif.Model.Copy
import Verif.Proof.Sim
import Verif.Proof.Eface

/-!
# The copying loops are the scanning loops of the model
-/

set_option linter.unusedSimpArgs false

namespace Jzon

section
variable {β : Type}

/-- The scanning loop that collects byte by byte. -/
def copyBody (cls : Byte → CopyAct β) (buf : List Byte) (c : Byte) : Act (List Byte) β :=
  match cls c with
  | .go => .cont (buf ++ [c])
  | .stop f => .stop (f buf)
  | .stopSkip f => .stopNext (f buf)
  | .stopWith f => .stopNext (f (buf ++ [c]))
  | .err e => .err e

theorem copySlice_some {s : List Byte} {a b : Nat} (h1 : a ≤ b) (h2 : b ≤ s.length) :
    sliceOf s a b = some ((s.take b).drop a) := by
  simp [sliceOf, h1, h2]

theorem slice_succ {s : List Byte} {a i : Nat} {c : Byte} (h : a ≤ i) (hc : s[i]? = some c) :
    (s.take (i + 1)).drop a = (s.take i).drop a ++ [c] := by
  have hi : i < s.length := by
    rcases Nat.lt_or_ge i s.length with h | h
    · exact h
    · rw [List.getElem?_eq_none h] at hc; cases hc
  rw [List.take_add_one, hc]
  simp only [Option.toList]
  rw [List.drop_append]
  have : (s.take i).length = i := by simp; omega
  rw [this, Nat.sub_eq_zero_of_le h]
  simp

/-- The two inner loops. -/
theorem copyInner_spec (cls : Byte → CopyAct β) (b buf : List Byte) (head : Nat) (k i : Nat) (hi : head ≤ i) (hk : i + k = b.length) :
    match copyInner cls b k i with
    | .panic => False
    | .used j => j = b.length ∧
        scanBuf (copyBody cls) (buf ++ (b.take i).drop head) i (b.drop i) = .exhausted (buf ++ (b.take j).drop head) j
    | .found j a => head ≤ j ∧ j < b.length ∧
        match a with
        | .go => False
        | .err e => scanBuf (copyBody cls) (buf ++ (b.take i).drop head) i (b.drop i) = .err e
        | .stop f => scanBuf (copyBody cls) (buf ++ (b.take i).drop head) i (b.drop i) = .stop (f (buf ++ (b.take j).drop head)) j
        | .stopSkip f =>
          scanBuf (copyBody cls) (buf ++ (b.take i).drop head) i (b.drop i) = .stop (f (buf ++ (b.take j).drop head)) (j + 1)
        | .stopWith f =>
          scanBuf (copyBody cls) (buf ++ (b.take i).drop head) i (b.drop i) = .stop (f (buf ++ (b.take (j + 1)).drop head)) (j + 1) := by
  induction k generalizing i with
  | zero =>
    simp only [copyInner]
    obtain rfl : i = b.length := by omega
    simp [scanBuf]
  | succ k ih =>
    have hlt : i < b.length := by omega
    have hc : b[i]? = some b[i] := List.getElem?_eq_getElem hlt
    have hd : b.drop i = b[i] :: b.drop (i + 1) := List.drop_eq_getElem_cons hlt
    have hs := slice_succ hi hc
    unfold copyInner
    rw [hc]
    simp only []
    rw [hd]
    simp only [scanBuf, copyBody]
    cases ha : cls b[i] with
    | go =>
      simp only []
      have := ih (i + 1) (by omega) (by omega)
      rw [hs, ← List.append_assoc] at this
      exact this
    | stop f => exact ⟨hi, hlt, rfl⟩
    | stopSkip f => exact ⟨hi, hlt, rfl⟩
    | stopWith f => exact ⟨hi, hlt, by simp only [hs, List.append_assoc]⟩
    | err e => exact ⟨hi, hlt, rfl⟩

theorem readMore_head_le {it it' : It} {e : Option Err} (h : it.head ≤ it.buf.length) (hr : it.readMore = (e, it')) :
    it'.head ≤ it'.buf.length := by
  unfold It.readMore at hr
  cases hs : it.reader with
  | none => rw [hs] at hr; cases hr; exact h
  | some script =>
    rw [hs] at hr
    exact readLoop_head_le script it it' e h hr

theorem copyLoop_eq (cls : Byte → CopyAct β) (onEOF : List Byte → Except Err β) (n : Nat) (buf : List Byte) (it : It)
    (h : it.head ≤ it.buf.length) : copyLoop cls onEOF n buf it = scanLoop (copyBody cls) onEOF n buf it := by
  induction n generalizing buf it with
  | zero => rfl
  | succ n ih =>
    unfold copyLoop scanLoop
    have spec := copyInner_spec cls it.buf buf it.head (it.buf.length - it.head) it.head (Nat.le_refl _) (by omega)
    have e0 : buf ++ (it.buf.take it.head).drop it.head = buf := by simp
    rw [e0] at spec
    cases hi : copyInner cls it.buf (it.buf.length - it.head) it.head with
    | panic => rw [hi] at spec; exact spec.elim
    | used j =>
      rw [hi] at spec
      obtain ⟨rfl, h2⟩ := spec
      rw [h2]
      simp only []
      rw [copySlice_some h (Nat.le_refl _)]
      simp only []
      cases hm : ({ it with head := it.buf.length } : It).readMore with
      | mk e it' =>
        cases e with
        | none =>
          simp only []
          exact ih _ _ (readMore_head_le (it := { it with head := it.buf.length }) (Nat.le_refl _) hm)
        | some e => rfl
    | found j a =>
      rw [hi] at spec
      obtain ⟨h1, h2, h3⟩ := spec
      cases a with
      | go => exact h3.elim
      | err e => simp only [] at h3 ⊢; rw [h3]
      | stop f => simp only [] at h3 ⊢; rw [h3, copySlice_some h1 (Nat.le_of_lt h2)]
      | stopSkip f => simp only [] at h3 ⊢; rw [h3, copySlice_some h1 (Nat.le_of_lt h2)]
      | stopWith f => simp only [] at h3 ⊢; rw [h3, copySlice_some (Nat.le_succ_of_le h1) h2]

/-- A copying loop is the scanning loop that collects byte by byte. -/
theorem copy_eq_scan (cls : Byte → CopyAct β) (onEOF : List Byte → Except Err β) (buf : List Byte) (it : It)
    (h : it.head ≤ it.buf.length) : it.copy cls onEOF buf = it.scan (copyBody cls) onEOF buf :=
  copyLoop_eq cls onEOF _ buf it h

end

theorem copyBody_str : copyBody copyStr = readStrBody := by
  funext buf c
  simp only [copyBody, copyStr, readStrBody]
  split <;> split <;> simp_all <;> grind

theorem copyBody_exp : copyBody copyExp = fexpBody := by
  funext buf c
  unfold copyBody copyExp fexpBody
  by_cases h : intDigit c = none <;> simp [h]

theorem copyBody_frac : copyBody copyFrac = ffracBody := by
  funext buf c
  unfold copyBody copyFrac ffracBody
  cases floatDigit c <;> rfl

theorem copyBody_int : copyBody copyInt = fintBody := by
  funext buf c
  unfold copyBody copyInt fintBody
  cases floatDigit c <;> rfl

/-! ## Strings -/

theorem inv_of_ok {α : Type} {p : Prog α} {it it' : It} {a : α} (h : it.Inv) (hr : p.runM it = (.ok a, it')) : it'.Inv := by
  have := p.agree it h
  rw [hr] at this
  cases hf : p.runF it.env it.rem with
  | error e => rw [hf] at this; exact this.elim
  | ok x => rw [hf] at this; exact this.2.2.inv

theorem scan_runM {σ β : Type} (body : σ → Byte → Act σ β) (onEOF : σ → Except Err β) (s : σ) (it : It) :
    (scan body onEOF s).runM it = it.scan body onEOF s := by
  unfold scan
  simp only [Prog.runM, Op.runM]
  cases it.scan body onEOF s with
  | mk x it' => cases x <;> rfl

theorem readStringLoop_runM (n : Nat) (buf : List Byte) (it : It) :
    (readStringLoop (n + 1) buf).runM it = match it.scan readStrBody (fun _ => .error .eof) buf with
      | (.error e, it) => (.error e, it)
      | (.ok (buf, .quote), it) => (.ok buf, it)
      | (.ok (buf, .backslash), it) =>
        match (readEscapedChar buf).runM it with
        | (.error e, it) => (.error e, it)
        | (.ok buf, it) => (readStringLoop n buf).runM it := by
  conv => lhs; unfold readStringLoop
  refine (runM_bind (scan readStrBody (fun _ => .error .eof) buf) _ it).trans ?_
  rw [scan_runM]
  cases it.scan readStrBody (fun _ => .error .eof) buf with
  | mk x it' =>
    cases x with
    | error e => rfl
    | ok y =>
      obtain ⟨b, st⟩ := y
      cases st with
      | quote => rfl
      | backslash =>
        refine (runM_bind (readEscapedChar b) _ it').trans ?_
        simp only []
        cases (readEscapedChar b).runM it' with
        | mk x it' => cases x <;> rfl

theorem copyStringSlow_eq (n : Nat) (buf : List Byte) (it : It) (h : it.Inv) :
    copyStringSlow n buf it = (readStringLoop n buf).runM it := by
  induction n generalizing buf it with
  | zero => rfl
  | succ n ih =>
    rw [readStringLoop_runM]
    unfold copyStringSlow
    rw [copy_eq_scan _ _ _ _ h.head_le, copyBody_str]
    cases hs : it.scan readStrBody (fun _ => .error .eof) buf with
    | mk x it' =>
      cases x with
      | error e => rfl
      | ok y =>
        obtain ⟨b, st⟩ := y
        have h' : it'.Inv := inv_of_ok (p := scan readStrBody (fun _ => .error .eof) buf) h (by rw [scan_runM]; exact hs)
        cases st with
        | quote => rfl
        | backslash =>
          simp only []
          cases hm : (readEscapedChar b).runM it' with
          | mk x it2 =>
            cases x with
            | error e => rfl
            | ok b2 => exact ih b2 it2 (inv_of_ok h' hm)

/-- More fuel than reader results does not matter. -/
theorem scanLoop_fuel {σ β : Type} (body : σ → Byte → Act σ β) (onEOF : σ → Except Err β) (n m : Nat) (s : σ) (it : It)
    (h : it.Inv) (hn : (it.reader.getD []).length < n) (hm : (it.reader.getD []).length < m) :
    scanLoop body onEOF n s it = scanLoop body onEOF m s it := by
  induction n generalizing m s it with
  | zero => omega
  | succ n ih =>
    cases m with
    | zero => omega
    | succ m =>
      unfold scanLoop
      have spec := scanBuf_spec body onEOF it.endErr s it.head (it.buf.drop it.head) (flatReader it.reader)
      cases hb : scanBuf body s it.head (it.buf.drop it.head) with
      | stop b j => rfl
      | err e => rfl
      | exhausted s' i =>
        rw [hb] at spec
        have hi : i = it.buf.length := by have := h.head_le; simp at spec; omega
        subst hi
        have ref := readMore_refill { it with head := it.buf.length } ⟨Nat.le_refl _, h.sticky⟩ rfl
        simp only []
        cases hr : ({ it with head := it.buf.length } : It).readMore with
        | mk e it' =>
          rw [hr] at ref
          cases e with
          | some e => rfl
          | none =>
            obtain ⟨st, _, _, hlt⟩ := ref.ok rfl
            have hlt : (it'.reader.getD []).length < (it.reader.getD []).length := hlt
            exact ih m s' it' st.inv (by omega) (by omega)

theorem copyInner_found {β : Type} {cls : Byte → CopyAct β} {b : List Byte} {k i j : Nat} {a : CopyAct β}
    (h : copyInner cls b k i = .found j a) : ∃ c, cls c = a ∧ cls c ≠ .go := by
  induction k generalizing i with
  | zero => cases h
  | succ k ih =>
    unfold copyInner at h
    cases hb : b[i]? with
    | none => rw [hb] at h; cases h
    | some c =>
      rw [hb] at h
      simp only [] at h
      cases hc : cls c with
      | go => rw [hc] at h; exact ih h
      | _ => rw [hc] at h; cases h; exact ⟨c, hc, by simp [hc]⟩

theorem copyString_eq (n : Nat) (tmp : List Byte) (it : It) (h : it.Inv) :
    copyString n tmp it = (readStringLoop (n + 1) []).runM it := by
  rw [readStringLoop_runM]
  unfold copyString
  have spec := copyInner_spec copyStr it.buf [] it.head (it.buf.length - it.head) it.head (Nat.le_refl _) (by have := h.head_le; omega)
  have e0 : ([] : List Byte) ++ (it.buf.take it.head).drop it.head = [] := by simp
  rw [e0, copyBody_str] at spec
  have hscan : it.scan readStrBody (fun _ => .error .eof) [] =
    scanLoop readStrBody (fun _ => .error .eof) ((it.reader.getD []).length + 1) [] it := rfl
  rw [hscan]
  unfold scanLoop
  cases hi : copyInner copyStr it.buf (it.buf.length - it.head) it.head with
  | panic => rw [hi] at spec; exact spec.elim
  | used j =>
    rw [hi] at spec
    obtain ⟨rfl, h2⟩ := spec
    rw [h2]
    simp only []
    rw [copySlice_some h.head_le (Nat.le_refl _)]
    simp only [List.take_zero, List.nil_append]
    have ref := readMore_refill { it with head := it.buf.length } ⟨Nat.le_refl _, h.sticky⟩ rfl
    cases hm : ({ it with head := it.buf.length } : It).readMore with
    | mk e it' =>
      rw [hm] at ref
      cases e with
      | none =>
        obtain ⟨st, _, _, hlt⟩ := ref.ok rfl
        have hlt : (it'.reader.getD []).length < (it.reader.getD []).length := hlt
        simp only []
        rw [copyStringSlow_eq _ _ _ st.inv, readStringLoop_runM]
        unfold It.scan
        rw [scanLoop_fuel _ _ _ (it.reader.getD []).length _ it' st.inv (Nat.lt_succ_self _) hlt]
      | some e =>
        simp only []
        by_cases he : e = .eof
        · subst he; rfl
        · simp only [he, if_false]
  | found j a =>
    rw [hi] at spec
    obtain ⟨h1, h2, h3⟩ := spec
    have hch : (∃ e, a = .err e) ∨ (∃ f, a = .stopSkip f ∧ ∀ b, (f b).1 = b) := by
      obtain ⟨c, rfl, hne⟩ := copyInner_found hi
      revert hne
      unfold copyStr
      split
      · exact fun _ => .inl ⟨_, rfl⟩
      · split
        · exact fun _ => .inr ⟨_, rfl, fun _ => rfl⟩
        · split
          · exact fun _ => .inr ⟨_, rfl, fun _ => rfl⟩
          · exact fun h => (h rfl).elim
    rcases hch with ⟨e, rfl⟩ | ⟨f, rfl, hf⟩
    · simp only [] at h3 ⊢; rw [h3]
    · simp only [] at h3 ⊢
      rw [h3, copySlice_some h1 (Nat.le_of_lt h2)]
      simp only [List.take_zero, List.nil_append]
      have hf := hf ((it.buf.take j).drop it.head)
      cases hfb : f ((it.buf.take j).drop it.head) with
      | mk b st =>
        rw [hfb] at hf
        simp only [] at hf
        subst hf
        have hinv : ({ it with head := j + 1 } : It).Inv := ⟨h2, h.sticky⟩
        cases st with
        | quote => rfl
        | backslash =>
          simp only []
          cases hm : (readEscapedChar ((it.buf.take j).drop it.head)).runM { it with head := j + 1 } with
          | mk x it2 =>
            cases x with
            | error e => rfl
            | ok b2 => exact copyStringSlow_eq n b2 it2 (inv_of_ok hinv hm)

/-! ## Numbers -/

theorem andThen_bind {α β : Type} (p : Prog α) (f : α → Prog β) (g : α → It → Except Err β × It) (it : It) (h : it.Inv)
    (hg : ∀ a it', it'.Inv → g a it' = (f a).runM it') : andThen (p.runM it) g = (p >>= f).runM it := by
  refine .trans ?_ (runM_bind p f it).symm
  cases hp : p.runM it with
  | mk x it' =>
    cases x with
    | error e => rfl
    | ok a => exact hg a it' (inv_of_ok h hp)

theorem andThen_scan {β γ : Type} (cls : Byte → CopyAct β) (body : List Byte → Byte → Act (List Byte) β)
    (onEOF : List Byte → Except Err β) (buf : List Byte)
    (f : β → Prog γ) (g : β → It → Except Err γ × It) (it : It) (h : it.Inv) (hb : copyBody cls = body)
    (hg : ∀ a it', it'.Inv → g a it' = (f a).runM it') :
    andThen (it.copy cls onEOF buf) g = (scan body onEOF buf >>= f).runM it := by
  rw [copy_eq_scan _ _ _ _ h.head_le, hb, ← scan_runM]
  exact andThen_bind _ _ _ _ h hg

variable {F : Type} (ops : FloatOps F)

theorem parseFloat_runM (buf : List Byte) (it : It) : (parseFloat ops buf).runM it = (ops.parse buf, it) := by
  unfold parseFloat
  cases ops.parse buf <;> rfl

theorem copyExponentPart_eq (buf : List Byte) (it : It) (h : it.Inv) :
    copyExponentPart ops buf it = (readFloatExponentPart ops buf).runM it := by
  unfold copyExponentPart readFloatExponentPart
  have digits : ∀ (b : List Byte) (c : Byte) (it : It), it.Inv →
      (if intDigit c = none then ((.error (.invalidFloat c), it) : Except Err F × It)
        else andThen (it.copy copyExp (fun buf => .ok buf) (b ++ [c])) fun buf it => (ops.parse buf, it)) =
      (readFloatExponentDigits ops b c).runM it := by
    intro b c it h
    unfold readFloatExponentDigits
    by_cases hc : intDigit c = none
    · simp only [hc, if_true]; rfl
    · simp only [hc, if_false]
      exact andThen_scan copyExp fexpBody _ _ _ _ it h copyBody_exp fun a it' _ => (parseFloat_runM ops a it').symm
  refine andThen_bind _ _ _ it h fun c it1 h1 => ?_
  by_cases hc : c = b! '+' ∨ c = b! '-'
  · simp only [hc, if_true]
    have : ∀ (x : Except Err Byte × It) (g : List Byte × Byte → It → Except Err F × It),
        andThen (andThen x fun d it => (.ok (buf ++ [c], d), it)) g = andThen x fun d it => g (buf ++ [c], d) it := by
      rintro ⟨x, it⟩ g; cases x <;> rfl
    rw [this]
    exact andThen_bind _ _ _ it1 h1 fun d it2 h2 => digits _ _ _ h2
  · simp only [hc, if_false]
    exact digits _ _ _ h1

theorem byte_runM (d : Byte → Dec) (it : It) : (byte d).runM it = andThen it.nextByte fun c it => (d c).runM c it := by
  unfold byte
  simp only [Prog.runM, Op.runM]
  cases it.nextByte with
  | mk x it' =>
    cases x with
    | error e => rfl
    | ok c =>
      simp only [andThen]
      cases (d c).runM c it' with
      | mk x it' => cases x <;> rfl

theorem copyFractionPart_eq (buf : List Byte) (it : It) (h : it.Inv) :
    copyFractionPart ops buf it = (readFloatFractionPart ops buf).runM it := by
  unfold readFloatFractionPart
  refine .trans ?_ (andThen_bind _ _ _ it h fun c it1 h1 => andThen_scan copyFrac ffracBody _ _ _
    (fun x it => if x.2 = .exp then copyExponentPart ops x.1 it else (ops.parse x.1, it)) it1 h1 copyBody_frac fun a it2 h2 => ?_)
  · rw [byte_runM]
    unfold copyFractionPart
    cases it.nextByte with
    | mk x it1 =>
      cases x with
      | error e => rfl
      | ok c =>
        simp only [andThen]
        by_cases hc : intDigit c = none
        · simp only [hc, if_true, Dec.runM]
        · simp only [hc, if_false, Dec.runM]
  · obtain ⟨b, st⟩ := a
    cases st with
    | exp => exact copyExponentPart_eq ops b it2 h2
    | dot => exact (parseFloat_runM ops b it2).symm
    | fin => exact (parseFloat_runM ops b it2).symm

theorem byteEOF_runM (take : Byte → Bool) (it : It) (h : it.Inv) :
    (byteEOF take).runM it =
      let (e, it) := if it.head = it.buf.length then it.readMore else (none, it)
      match e with
      | some e => if e = .eof then (.ok none, it) else (.error e, it)
      | none =>
        match it.buf[it.head]? with
        | none => (.error .panic, it)
        | some d => if take d then (.ok (some d), { it with head := it.head + 1 }) else (.ok (some d), it) := by
  unfold byteEOF
  rw [scan_runM]
  unfold It.scan
  by_cases hh : it.head = it.buf.length
  · have hd : it.buf.drop it.head = [] := by rw [hh]; simp
    unfold scanLoop
    rw [hd]
    simp only [scanBuf, if_pos hh]
    have ref := readMore_refill it h hh
    cases hr : it.readMore with
    | mk e it' =>
      rw [hr] at ref
      cases e with
      | some e => rfl
      | none =>
        obtain ⟨_, _, hl, hlt⟩ := ref.ok rfl
        have hlt : (it'.reader.getD []).length < (it.reader.getD []).length := hlt
        have hl : it'.head < it'.buf.length := hl
        obtain ⟨n, hn⟩ : ∃ n, (it.reader.getD []).length = n + 1 := ⟨(it.reader.getD []).length - 1, by omega⟩
        rw [hn]
        simp only []
        unfold scanLoop
        rw [List.drop_eq_getElem_cons hl, List.getElem?_eq_getElem hl]
        simp only [scanBuf]
        cases ht : take it'.buf[it'.head] <;> simp
  · have hl : it.head < it.buf.length := Nat.lt_of_le_of_ne h.head_le hh
    unfold scanLoop
    rw [List.drop_eq_getElem_cons hl, if_neg hh]
    simp only []
    rw [List.getElem?_eq_getElem hl]
    simp only [scanBuf]
    cases ht : take it.buf[it.head] <;> simp

theorem copyPositiveFloat_eq (c : Byte) (it : It) (h : it.Inv) :
    copyPositiveFloat ops c [] it = (readPositiveFloat ops c).runM it := by
  unfold copyPositiveFloat readPositiveFloat
  cases hu : intDigit c with
  | none => rfl
  | some u =>
    cases u with
    | zero =>
      simp only []
      refine .trans ?_ (runM_bind (byteEOF fun c => floatDigit c = .dot ∨ floatDigit c = .exp) _ it).symm
      have hinv := fun x it' => inv_of_ok (p := byteEOF fun c => floatDigit c = .dot ∨ floatDigit c = .exp) (it' := it') (a := x) h
      rw [byteEOF_runM _ it h] at hinv ⊢
      cases hr : (if it.head = it.buf.length then it.readMore else (none, it)) with
      | mk e it1 =>
        rw [hr] at hinv
        cases e with
        | some e =>
          simp only []
          by_cases he : e = .eof
          · simp only [he, if_true]; rfl
          · simp only [he, if_false]
        | none =>
          simp only [] at hinv ⊢
          cases hb : it1.buf[it1.head]? with
          | none => rfl
          | some d =>
            rw [hb] at hinv
            simp only [] at hinv ⊢
            cases hd : floatDigit d with
            | dot =>
              simp only [hd, decide_true, true_or, if_true] at hinv ⊢
              exact copyFractionPart_eq ops _ _ (hinv _ _ rfl)
            | exp =>
              simp only [hd, decide_true, or_true, if_true] at hinv ⊢
              exact copyExponentPart_eq ops _ _ (hinv _ _ rfl)
            | digit u => simp [hd]; rfl
            | invalid => simp [hd]; rfl
    | succ u =>
      simp only [List.nil_append]
      refine andThen_scan copyInt fintBody _ _ _ _ it h copyBody_int fun a it2 h2 => ?_
      obtain ⟨b, st⟩ := a
      cases st with
      | exp => exact copyExponentPart_eq ops b it2 h2
      | dot => exact copyFractionPart_eq ops b it2 h2
      | fin => exact (parseFloat_runM ops b it2).symm

theorem copyFloat_eq (tmp : List Byte) (it : It) (h : it.Inv) : copyFloat ops tmp it = (ReadFloat ops).runM it := by
  unfold copyFloat ReadFloat
  refine andThen_bind _ _ _ it h fun c it1 h1 => ?_
  unfold readFloat
  rw [List.take_zero]
  by_cases hc : c = b! '-'
  · simp only [hc, if_true]
    refine andThen_bind _ _ _ it1 h1 fun c it2 h2 => ?_
    rw [copyPositiveFloat_eq ops c it2 h2]
    exact andThen_bind _ _ _ it2 h2 fun f it3 _ => rfl
  · simp only [hc, if_false]
    exact copyPositiveFloat_eq ops c it1 h1

end Jzon
