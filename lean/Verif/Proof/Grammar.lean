import Verif.Proof.Machine
import Verif.Spec.GoValue

/-!
# Recursive descent accepts exactly the JSON grammar
-/

set_option linter.unusedSimpArgs false

namespace Jzon

open Spec

/-! ## Members -/

theorem lastWins_nil {F : Type} : lastWins (F := F) [] = GoMap.empty := by
  funext k; simp [lastWins, GoMap.empty]

theorem lastWins_append {F : Type} (ms : List (List Byte × GoVal F)) (k : List Byte) (g : GoVal F) :
    lastWins (ms ++ [(k, g)]) = GoMap.set (lastWins ms) k g := by
  funext k'
  unfold lastWins GoMap.set
  rw [List.reverse_append]
  simp only [List.reverse_cons, List.reverse_nil, List.nil_append, List.cons_append, List.find?_cons]
  by_cases h : k = k'
  · simp [h]
  · have h1 : (k == k') = false := by simpa using h
    simp only [h1, if_neg (Ne.symm h)]

theorem setAll_lastWins {F : Type} (ms kgs : List (List Byte × GoVal F)) :
    setAll (lastWins ms) kgs = lastWins (ms ++ kgs) := by
  induction kgs generalizing ms with
  | nil => simp [setAll]
  | cons x kgs ih =>
    obtain ⟨k, g⟩ := x
    have := ih (ms ++ [(k, g)])
    rw [lastWins_append] at this
    simp only [List.append_assoc, List.singleton_append] at this
    rw [← this]
    rfl

theorem setAll_empty {F : Type} (kgs : List (List Byte × GoVal F)) : setAll .empty kgs = lastWins kgs := by
  rw [← lastWins_nil, setAll_lastWins]; rfl

/-! ## Numbers -/

/-- How `cfg` reads numbers: the longest literal, with the value `num`. -/
def NumSem {F : Type} (cfg : ReadCfg F) (env : Env) (num : List Byte → Option (GoVal F)) : Prop :=
  ∀ (c : Byte) (l : List Byte) (g : GoVal F) (r : List Byte), isNumberStart c = true →
    (Runs (readNumberVal cfg c) env l g r ↔
      ∃ t, c :: l = t ++ r ∧ Number t ∧ Final t r ∧ EndOk env r ∧ num t = some g)

theorem numSem_useNumber {F : Type} (ops : FloatOps F) (env : Env) :
    NumSem ⟨true, ops⟩ env (fun t => some (.number t)) := by
  intro c l g r hc
  simp only [readNumberVal, if_true, runs_bind, runs_pure, runs_readNumberAsString hc, Option.some.injEq]
  constructor
  · rintro ⟨t, _, ⟨h1, h2, h3, h4⟩, rfl, rfl⟩; exact ⟨t, h1, h2, h3, h4, rfl⟩
  · rintro ⟨t, h1, h2, h3, h4, rfl⟩; exact ⟨t, r, ⟨h1, h2, h3, h4⟩, rfl, rfl⟩

/-- What must follow a value: a number has to be complete. -/
def Ends (env : Env) (t : List Byte) (v : JVal) (r : List Byte) : Prop :=
  match v with
  | .num _ => Final t r ∧ EndOk env r
  | _ => True

/-! ## First bytes -/

theorem numberStart_notWs {c : Byte} (h : isNumberStart c = true) :
    isWs c = false ∧ c ≠ 0x5D ∧ c ≠ 0x7D ∧ c ≠ 0x5B ∧ c ≠ 0x7B ∧ c ≠ 0x22 ∧ c ≠ 0x6E ∧ c ≠ 0x74 ∧ c ≠ 0x66 := by
  revert h; revert c; apply forall_byte; decide +kernel

theorem value_cons {t : List Byte} {v : JVal} (h : Value t v) : ∃ c t', t = c :: t' ∧ isWs c = false := by
  cases h with
  | null => exact ⟨_, _, rfl, rfl⟩
  | true => exact ⟨_, _, rfl, rfl⟩
  | false => exact ⟨_, _, rfl, rfl⟩
  | num _ h =>
    obtain ⟨c, t', h1, h2⟩ := number_start h
    exact ⟨c, t', h1, (numberStart_notWs h2).1⟩
  | str _ _ h => obtain ⟨b, _, rfl⟩ := h; exact ⟨_, _, rfl, rfl⟩
  | arrEmpty w h => exact ⟨_, _, rfl, rfl⟩
  | arr l vs h => exact ⟨_, _, rfl, rfl⟩
  | objEmpty w h => exact ⟨_, _, rfl, rfl⟩
  | obj l vs h => exact ⟨_, _, rfl, rfl⟩

theorem ws_nil : Ws [] := by intro c h; cases h
theorem ws_append {a b : List Byte} (ha : Ws a) (hb : Ws b) : Ws (a ++ b) := by
  intro c hc
  rcases List.mem_append.mp hc with h | h
  · exact ha c h
  · exact hb c h

theorem dropWs_ws {w : List Byte} (hw : Ws w) {c : Byte} (hc : isWs c = false) (r : List Byte) :
    dropWs (w ++ c :: r) = c :: r := dropWs_eq_cons.mpr ⟨w, hw, hc, rfl⟩

/-- White space followed by a comma or a closing bracket ends a number. -/
theorem notNext_ws {w : List Byte} (hw : Ws w) {c : Byte} (hc : c = 0x2C ∨ c = 0x5D ∨ c = 0x7D) (r : List Byte) :
    NotNext NumByte (w ++ c :: r) := by
  cases w with
  | nil =>
    rw [List.nil_append, notNext_cons]
    rcases hc with rfl | rfl | rfl <;> simp [NumByte, Digit, IsExp] <;> decide
  | cons x w =>
    rw [List.cons_append, notNext_cons]
    rcases hw x (by simp) with rfl | rfl | rfl | rfl <;> simp [NumByte, Digit, IsExp] <;> decide

theorem ends_ws {env : Env} {t : List Byte} {v : JVal} (h : Value t v) {w : List Byte} (hw : Ws w) {c : Byte}
    (hc : c = 0x2C ∨ c = 0x5D ∨ c = 0x7D) (r : List Byte) : Ends env t v (w ++ c :: r) := by
  cases h with
  | num _ h => exact ⟨final_of_notNext h (notNext_ws hw hc r), fun hh => by simp at hh⟩
  | _ => trivial

section
variable {F : Type} {cfg : ReadCfg F} {env : Env} {num : List Byte → Option (GoVal F)}

theorem readField_iff {l k r : List Byte} :
    Runs readObjectField env l k r ↔ ∃ b w, StrBody b k ∧ Ws w ∧ l = b ++ 0x22 :: (w ++ 0x3A :: r) := by
  unfold readObjectField
  simp only [runs_bind, runs_pure, runs_readString, runs_token']
  constructor
  · rintro ⟨s, _, ⟨b, h1, rfl⟩, c, l2, ⟨w, l', hw, hc, rfl, h⟩, rfl, rfl⟩
    by_cases hq : c = 0x3A
    · subst hq
      simp at h
      subst h
      exact ⟨b, w, h1, hw, rfl⟩
    · simp [hq] at h
  · rintro ⟨b, w, h1, hw, rfl⟩
    exact ⟨k, _, ⟨b, h1, rfl⟩, 0x3A, r, ⟨w, r, hw, rfl, rfl, .inl ⟨by simp, rfl⟩⟩, rfl, rfl⟩

theorem readScalar_sound (hn : NumSem cfg env num) {c : Byte} {l : List Byte} {g : GoVal F} {r : List Byte}
    (h : Runs (readScalar cfg c) env l g r) :
    ∃ t v, c :: l = t ++ r ∧ Value t v ∧ toGo num v = some g ∧ Ends env t v r := by
  unfold readScalar at h
  split at h
  · rename_i hc; subst hc
    simp only [runs_bind, runs_pure, runs_readString] at h
    obtain ⟨s, _, ⟨b, hb, rfl⟩, rfl, rfl⟩ := h
    exact ⟨0x22 :: (b ++ [0x22]), .str s, by simp, .str _ _ ⟨b, hb, rfl⟩, by simp [toGo], trivial⟩
  · split at h
    · rename_i hc; subst hc
      simp only [runs_bind, runs_pure, runs_expectBytes (s := ull) (by decide)] at h
      obtain ⟨_, _, rfl, rfl, rfl⟩ := h
      exact ⟨_, .null, by simp [ull], .null, by simp [toGo], trivial⟩
    · split at h
      · rename_i hc; subst hc
        simp only [runs_bind, runs_pure, runs_expectBytes (s := rue) (by decide)] at h
        obtain ⟨_, _, rfl, rfl, rfl⟩ := h
        exact ⟨_, .bool true, by simp [rue], .true, by simp [toGo], trivial⟩
      · split at h
        · rename_i hc; subst hc
          simp only [runs_bind, runs_pure, runs_expectBytes (s := alse) (by decide)] at h
          obtain ⟨_, _, rfl, rfl, rfl⟩ := h
          exact ⟨_, .bool false, by simp [alse], .false, by simp [toGo], trivial⟩
        · split at h
          · rename_i hs
            obtain ⟨t, h1, h2, h3, h4, h5⟩ := (hn _ _ _ _ hs).mp h
            exact ⟨t, .num t, h1, .num t h2, by simpa [toGo] using h5, h3, h4⟩
          · simp at h

theorem readScalar_complete (hn : NumSem cfg env num) {c : Byte} {t : List Byte} {v : JVal} {g : GoVal F} {r : List Byte}
    (hv : Value (c :: t) v) (hc : c ≠ 0x5B ∧ c ≠ 0x7B) (hg : toGo num v = some g) (he : Ends env (c :: t) v r) :
    Runs (readScalar cfg c) env (t ++ r) g r := by
  unfold readScalar
  generalize hl : c :: t = l at hv he
  cases hv with
  | null =>
    injection hl with h1 h2; subst h1; subst h2
    simp only [toGo, Option.some.injEq] at hg; subst hg
    rw [if_neg (by decide), if_pos rfl]
    simp only [runs_bind, runs_pure, runs_expectBytes (s := ull) (by decide)]
    exact ⟨(), r, by simp [ull], by simp⟩
  | true =>
    injection hl with h1 h2; subst h1; subst h2
    simp only [toGo, Option.some.injEq] at hg; subst hg
    rw [if_neg (by decide), if_neg (by decide), if_pos rfl]
    simp only [runs_bind, runs_pure, runs_expectBytes (s := rue) (by decide)]
    exact ⟨(), r, by simp [rue], by simp⟩
  | false =>
    injection hl with h1 h2; subst h1; subst h2
    simp only [toGo, Option.some.injEq] at hg; subst hg
    rw [if_neg (by decide), if_neg (by decide), if_neg (by decide), if_pos rfl]
    simp only [runs_bind, runs_pure, runs_expectBytes (s := alse) (by decide)]
    exact ⟨(), r, by simp [alse], by simp⟩
  | num _ h =>
    subst hl
    obtain ⟨c', t', e, hs⟩ := number_start h
    injection e with e1 e2; subst e1; subst e2
    obtain ⟨_, _, _, _, _, n1, n2, n3, n4⟩ := numberStart_notWs hs
    rw [if_neg n1, if_neg n2, if_neg n3, if_neg n4, if_pos hs]
    simp only [toGo] at hg
    exact (hn _ _ _ _ hs).mpr ⟨c :: t, by simp, h, he.1, he.2, hg⟩
  | str _ s h =>
    obtain ⟨b, hb, rfl⟩ := h
    injection hl with h1 h2; subst h1; subst h2
    simp only [toGo, Option.some.injEq] at hg; subst hg
    rw [if_pos rfl]
    simp only [runs_bind, runs_pure, runs_readString]
    exact ⟨s, r, ⟨b, hb, by simp⟩, rfl, rfl⟩
  | arrEmpty w h => injection hl with h1 h2; exact absurd h1 hc.1
  | arr l vs h => injection hl with h1 h2; exact absurd h1 hc.1
  | objEmpty w h => injection hl with h1 h2; exact absurd h1 hc.2
  | obj l vs h => injection hl with h1 h2; exact absurd h1 hc.2

/-! ## Soundness -/

def ArrText (num : List Byte → Option (GoVal F)) (b : Bool) (l : List Byte) (gs : List (GoVal F)) (r : List Byte) : Prop :=
  (gs = [] ∧ ∃ w, Ws w ∧ l = w ++ 0x5D :: r) ∨
  ∃ w t vs, Ws w ∧ Elems t vs ∧ toGoList num vs = some gs ∧
    l = (if b then [] else w ++ [0x2C]) ++ (t ++ 0x5D :: r)

def ObjText (num : List Byte → Option (GoVal F)) (b : Bool) (l : List Byte) (gs : List (List Byte × GoVal F)) (r : List Byte) :
    Prop :=
  (gs = [] ∧ ∃ w, Ws w ∧ l = w ++ 0x7D :: r) ∨
  ∃ w t vs, Ws w ∧ Members t vs ∧ toGoMembers num vs = some gs ∧
    l = (if b then [] else w ++ [0x2C]) ++ (t ++ 0x7D :: r)

theorem arrText_cons {w0 : List Byte} (hw0 : Ws w0) {c : Byte} {l1 l2 : List Byte} {t : List Byte} {v : JVal} {g : GoVal F}
    {gs : List (GoVal F)} {r : List Byte}
    (h1 : c :: l1 = t ++ l2) (hv : Value t v) (hg : toGo num v = some g) (hr : ArrText num false l2 gs r) :
    ∃ t' vs, Elems t' vs ∧ toGoList num vs = some (g :: gs) ∧ w0 ++ c :: l1 = t' ++ 0x5D :: r := by
  rcases hr with ⟨rfl, w, hw, rfl⟩ | ⟨w, t', vs, hw, ht, hgs, rfl⟩
  · exact ⟨_, [v], .one w0 t w v hw0 hv hw, by simp [toGoList, hg], by rw [h1]; simp⟩
  · exact ⟨_, v :: vs, .cons w0 t w t' v vs hw0 hv hw ht, by simp [toGoList, hg, hgs], by rw [h1]; simp⟩

theorem objText_cons {w0 : List Byte} (hw0 : Ws w0) {b k w1 w2 : List Byte} (hb : StrBody b k) (hw1 : Ws w1) (hw2 : Ws w2)
    {c : Byte} {l1 l2 : List Byte} {t : List Byte} {v : JVal} {g : GoVal F}
    {gs : List (List Byte × GoVal F)} {r : List Byte}
    (h1 : c :: l1 = t ++ l2) (hv : Value t v) (hg : toGo num v = some g) (hr : ObjText num false l2 gs r) :
    ∃ t' vs, Members t' vs ∧ toGoMembers num vs = some ((k, g) :: gs) ∧
      w0 ++ 0x22 :: (b ++ 0x22 :: (w1 ++ 0x3A :: (w2 ++ c :: l1))) = t' ++ 0x7D :: r := by
  rcases hr with ⟨rfl, w, hw, rfl⟩ | ⟨w, t', vs, hw, ht, hgs, rfl⟩
  · exact ⟨_, [(k, v)], .single w0 _ w1 w2 t w k v hw0 ⟨b, hb, rfl⟩ hw1 hw2 hv hw, by simp [toGoMembers, hg],
      by rw [h1]; simp⟩
  · exact ⟨_, (k, v) :: vs, .more w0 _ w1 w2 t w t' k v vs hw0 ⟨b, hb, rfl⟩ hw1 hw2 hv hw ht,
      by simp [toGoMembers, hg, hgs], by rw [h1]; simp⟩

theorem rval_sound (hn : NumSem cfg env num) {c : Byte} {l : List Byte} {g : GoVal F} {r : List Byte}
    (h : RVal cfg env c l g r) :
    ∃ t v, c :: l = t ++ r ∧ Value t v ∧ toGo num v = some g ∧ Ends env t v r := by
  induction h using RVal.rec
    (motive_2 := fun b l gs r _ => ArrText num b l gs r)
    (motive_3 := fun b l gs r _ => ObjText num b l gs r) with
  | scalar hc h => exact readScalar_sound hn h
  | arr h ih =>
    rcases ih with ⟨rfl, w, hw, rfl⟩ | ⟨w, t, vs, hw, ht, hgs, rfl⟩
    · exact ⟨_, .arr [], by simp, .arrEmpty w hw, by simp [toGo, toGoList], trivial⟩
    · exact ⟨_, .arr vs, by simp, .arr t vs ht, by simp [toGo, hgs], trivial⟩
  | obj h ih =>
    rw [setAll_empty]
    rcases ih with ⟨rfl, w, hw, rfl⟩ | ⟨w, t, vs, hw, ht, hgs, rfl⟩
    · exact ⟨_, .obj [], by simp, .objEmpty w hw, by simp [toGo, toGoMembers], trivial⟩
    · exact ⟨_, .obj vs, by simp, .obj t vs ht, by simp [toGo, hgs], trivial⟩
  | @close b l r h =>
    obtain ⟨w, hw, _, rfl⟩ := dropWs_eq_cons.mp h
    exact .inl ⟨rfl, w, hw, rfl⟩
  | first h hv hr ih1 ih2 =>
    obtain ⟨w, hw, _, rfl⟩ := dropWs_eq_cons.mp h
    obtain ⟨t, v, h1, h2, h3, _⟩ := ih1
    obtain ⟨t', vs, a1, a2, a3⟩ := arrText_cons hw h1 h2 h3 ih2
    exact .inr ⟨[], t', vs, ws_nil, a1, a2, by simpa using a3⟩
  | next h0 h hv hr ih1 ih2 =>
    obtain ⟨w0, hw0, _, rfl⟩ := dropWs_eq_cons.mp h0
    obtain ⟨w, hw, _, rfl⟩ := dropWs_eq_cons.mp h
    obtain ⟨t, v, h1, h2, h3, _⟩ := ih1
    obtain ⟨t', vs, a1, a2, a3⟩ := arrText_cons hw h1 h2 h3 ih2
    exact .inr ⟨w0, t', vs, hw0, a1, a2, by simp [a3]⟩
  | @oclose b l r h =>
    obtain ⟨w, hw, _, rfl⟩ := dropWs_eq_cons.mp h
    exact .inl ⟨rfl, w, hw, rfl⟩
  | ofirst h hk hc hv hr ih1 ih2 =>
    obtain ⟨w, hw, _, rfl⟩ := dropWs_eq_cons.mp h
    obtain ⟨b, w1, hb, hw1, rfl⟩ := readField_iff.mp hk
    obtain ⟨w2, hw2, _, rfl⟩ := dropWs_eq_cons.mp hc
    obtain ⟨t, v, h1, h2, h3, _⟩ := ih1
    obtain ⟨t', vs, a1, a2, a3⟩ := objText_cons hw hb hw1 hw2 h1 h2 h3 ih2
    exact .inr ⟨[], t', vs, ws_nil, a1, a2, by simpa using a3⟩
  | onext h0 h hk hc hv hr ih1 ih2 =>
    obtain ⟨w0, hw0, _, rfl⟩ := dropWs_eq_cons.mp h0
    obtain ⟨w, hw, _, rfl⟩ := dropWs_eq_cons.mp h
    obtain ⟨b, w1, hb, hw1, rfl⟩ := readField_iff.mp hk
    obtain ⟨w2, hw2, _, rfl⟩ := dropWs_eq_cons.mp hc
    obtain ⟨t, v, h1, h2, h3, _⟩ := ih1
    obtain ⟨t', vs, a1, a2, a3⟩ := objText_cons hw hb hw1 hw2 h1 h2 h3 ih2
    exact .inr ⟨w0, t', vs, hw0, a1, a2, by simp [a3]⟩

/-! ## Completeness -/

theorem rval_complete (hn : NumSem cfg env num) {t : List Byte} {v : JVal} (h : Value t v) :
    ∀ (c : Byte) (t' : List Byte), t = c :: t' → ∀ (g : GoVal F) (r : List Byte), toGo num v = some g →
      Ends env t v r → RVal cfg env c (t' ++ r) g r := by
  induction h using Value.rec
    (motive_2 := fun t vs _ => ∀ (gs : List (GoVal F)) (r : List Byte), toGoList num vs = some gs →
      ∃ g gs', gs = g :: gs' ∧ ∃ c l1 l2, dropWs (t ++ 0x5D :: r) = c :: l1 ∧ RVal cfg env c l1 g l2 ∧
        RArr cfg env false l2 gs' r)
    (motive_3 := fun t vs _ => ∀ (gs : List (List Byte × GoVal F)) (r : List Byte), toGoMembers num vs = some gs →
      ∃ k g gs', gs = (k, g) :: gs' ∧ ∃ l0 l1 c l2 l3, dropWs (t ++ 0x7D :: r) = 0x22 :: l0 ∧
        Runs readObjectField env l0 k l1 ∧ dropWs l1 = c :: l2 ∧ RVal cfg env c l2 g l3 ∧
        RObj cfg env false l3 gs' r) with
  | null =>
    rintro c t' e g r hg he
    refine .scalar ?_ (readScalar_complete hn (e ▸ .null) ?_ hg (e ▸ he)) <;>
      (injection e with e1 _; rw [← e1]; decide)
  | true =>
    rintro c t' e g r hg he
    refine .scalar ?_ (readScalar_complete hn (e ▸ .true) ?_ hg (e ▸ he)) <;>
      (injection e with e1 _; rw [← e1]; decide)
  | false =>
    rintro c t' e g r hg he
    refine .scalar ?_ (readScalar_complete hn (e ▸ .false) ?_ hg (e ▸ he)) <;>
      (injection e with e1 _; rw [← e1]; decide)
  | num l h =>
    rintro c t' rfl g r hg he
    obtain ⟨c', t'', e, hs⟩ := number_start h
    injection e with e1 e2; subst e1; subst e2
    have := numberStart_notWs hs
    exact .scalar ⟨this.2.2.2.1, this.2.2.2.2.1⟩
      (readScalar_complete hn (.num _ h) ⟨this.2.2.2.1, this.2.2.2.2.1⟩ hg he)
  | str l s h =>
    rintro c t' rfl g r hg he
    have hc : c = 0x22 := by obtain ⟨b, _, e⟩ := h; injection e
    subst hc
    exact .scalar (by decide) (readScalar_complete hn (.str _ _ h) (by decide) hg he)
  | arrEmpty w hw =>
    rintro c t' e g r hg he
    injection e with e1 e2; subst e1; subst e2
    simp only [toGo, toGoList, Option.map_some, Option.some.injEq] at hg
    subst hg
    refine .arr (.close ?_)
    rw [List.append_assoc]
    exact dropWs_ws hw rfl r
  | arr l vs h ih =>
    rintro c t' e g r hg he
    injection e with e1 e2; subst e1; subst e2
    simp only [toGo, Option.map_eq_some_iff] at hg
    obtain ⟨gs, hgs, rfl⟩ := hg
    obtain ⟨g, gs', rfl, c, l1, l2, a1, a2, a3⟩ := ih gs r hgs
    exact .arr (.first (by rw [List.append_assoc]; exact a1) a2 a3)
  | objEmpty w hw =>
    rintro c t' e g r hg he
    injection e with e1 e2; subst e1; subst e2
    simp only [toGo, toGoMembers, Option.map_some, Option.some.injEq] at hg
    subst hg
    rw [← setAll_empty]
    refine .obj (.oclose ?_)
    rw [List.append_assoc]
    exact dropWs_ws hw rfl r
  | obj l vs h ih =>
    rintro c t' e g r hg he
    injection e with e1 e2; subst e1; subst e2
    simp only [toGo, Option.map_eq_some_iff] at hg
    obtain ⟨gs, hgs, rfl⟩ := hg
    rw [← setAll_empty]
    obtain ⟨k, g, gs', rfl, l0, l1, c, l2, l3, a1, a2, a3, a4, a5⟩ := ih gs r hgs
    exact .obj (.ofirst (by rw [List.append_assoc]; exact a1) a2 a3 a4 a5)
  | one w1 t w2 v h1 h h2 ih =>
    rename_i gs r hgs
    simp only [toGoList] at hgs
    split at hgs
    · rename_i g gs0 hg hgs0
      cases hgs0
      cases hgs
      obtain ⟨c, t', rfl, hc⟩ := value_cons h
      refine ⟨g, [], rfl, c, t' ++ (w2 ++ 0x5D :: r), w2 ++ 0x5D :: r, ?_, ?_, ?_⟩
      · simp only [List.append_assoc, List.cons_append]
        exact dropWs_ws h1 hc _
      · exact ih c t' rfl g _ hg (ends_ws h h2 (by simp) r)
      · exact .close (dropWs_ws h2 rfl r)
    · cases hgs
  | cons w1 t w2 rt v vs h1 h h2 hr ih1 ih2 =>
    rename_i gs r hgs
    simp only [toGoList] at hgs
    split at hgs
    · rename_i g gs0 hg hgs0
      cases hgs
      obtain ⟨c, t', rfl, hc⟩ := value_cons h
      obtain ⟨g', gs', rfl, c', l1, l2, a1, a2, a3⟩ := ih2 gs0 r hgs0
      refine ⟨g, _, rfl, c, t' ++ (w2 ++ 0x2C :: (rt ++ 0x5D :: r)), w2 ++ 0x2C :: (rt ++ 0x5D :: r), ?_, ?_, ?_⟩
      · simp only [List.append_assoc, List.cons_append]
        exact dropWs_ws h1 hc _
      · exact ih1 c t' rfl g _ hg (ends_ws h h2 (by simp) _)
      · exact .next (dropWs_ws h2 rfl _) a1 a2 a3
    · cases hgs
  | single w1 k w2 w3 t w4 key v h1 hk h2 h3 h h4 ih =>
    rename_i gs r hgs
    simp only [toGoMembers] at hgs
    split at hgs
    · rename_i g gs0 hg hgs0
      cases hgs0
      cases hgs
      obtain ⟨c, t', rfl, hc⟩ := value_cons h
      obtain ⟨b, hb, rfl⟩ := hk
      refine ⟨key, g, [], rfl, b ++ 0x22 :: (w2 ++ 0x3A :: (w3 ++ (c :: t' ++ (w4 ++ 0x7D :: r)))),
        w3 ++ (c :: t' ++ (w4 ++ 0x7D :: r)), c, t' ++ (w4 ++ 0x7D :: r), w4 ++ 0x7D :: r, ?_, ?_, ?_, ?_, ?_⟩
      · simp only [List.append_assoc, List.cons_append]
        exact dropWs_ws h1 rfl _
      · exact readField_iff.mpr ⟨b, w2, hb, h2, rfl⟩
      · exact dropWs_ws h3 hc _
      · exact ih c t' rfl g _ hg (ends_ws h h4 (by simp) r)
      · exact .oclose (dropWs_ws h4 rfl r)
    · cases hgs
  | more w1 k w2 w3 t w4 rt key v vs h1 hk h2 h3 h h4 hr ih1 ih2 =>
    rename_i gs r hgs
    simp only [toGoMembers] at hgs
    split at hgs
    · rename_i g gs0 hg hgs0
      cases hgs
      obtain ⟨c, t', rfl, hc⟩ := value_cons h
      obtain ⟨b, hb, rfl⟩ := hk
      obtain ⟨k', g', gs', rfl, l0, l1, c', l2, l3, a1, a2, a3, a4, a5⟩ := ih2 gs0 r hgs0
      refine ⟨key, g, _, rfl, b ++ 0x22 :: (w2 ++ 0x3A :: (w3 ++ (c :: t' ++ (w4 ++ 0x2C :: (rt ++ 0x7D :: r))))),
        w3 ++ (c :: t' ++ (w4 ++ 0x2C :: (rt ++ 0x7D :: r))), c, t' ++ (w4 ++ 0x2C :: (rt ++ 0x7D :: r)),
        w4 ++ 0x2C :: (rt ++ 0x7D :: r), ?_, ?_, ?_, ?_, ?_⟩
      · simp only [List.append_assoc, List.cons_append]
        exact dropWs_ws h1 rfl _
      · exact readField_iff.mpr ⟨b, w2, hb, h2, rfl⟩
      · exact dropWs_ws h3 hc _
      · exact ih1 c t' rfl g _ hg (ends_ws h h4 (by simp) _)
      · exact .onext (dropWs_ws h4 rfl _) a1 a2 a3 a4 a5
    · cases hgs

theorem rval_iff (hn : NumSem cfg env num) {c : Byte} {l : List Byte} {g : GoVal F} {r : List Byte} :
    RVal cfg env c l g r ↔ ∃ t v, c :: l = t ++ r ∧ Value t v ∧ toGo num v = some g ∧ Ends env t v r := by
  constructor
  · exact rval_sound hn
  · rintro ⟨t, v, h1, h2, h3, h4⟩
    obtain ⟨c', t', rfl, _⟩ := value_cons h2
    injection h1 with e1 e2
    subst e1
    rw [e2]
    exact rval_complete hn h2 _ t' rfl g r h3 h4

/-- `Read` on the remaining bytes. -/
theorem runs_read (hn : NumSem cfg env num) (pool : Stack) {l : List Byte} {g : GoVal F} {r : List Byte} :
    Runs (Read cfg pool) env l g r ↔
      ∃ w t v, l = w ++ (t ++ r) ∧ Ws w ∧ Value t v ∧ toGo num v = some g ∧ Ends env t v r := by
  rw [read_iff]
  constructor
  · rintro ⟨c, l1, h1, h2⟩
    obtain ⟨w, hw, _, rfl⟩ := dropWs_eq_cons.mp h1
    obtain ⟨t, v, a1, a2, a3, a4⟩ := (rval_iff hn).mp h2
    exact ⟨w, t, v, by rw [a1], hw, a2, a3, a4⟩
  · rintro ⟨w, t, v, rfl, hw, a2, a3, a4⟩
    obtain ⟨c, t', rfl, hc⟩ := value_cons a2
    exact ⟨c, t' ++ r, dropWs_ws hw hc _, (rval_iff hn).mpr ⟨_, v, rfl, a2, a3, a4⟩⟩

end

/-! ## Skip -/

mutual
theorem toGo_total {F : Type} {num : List Byte → Option (GoVal F)} (hn : ∀ t, ∃ g, num t = some g) (v : JVal) :
    ∃ g, toGo num v = some g := by
  cases v with
  | null => exact ⟨_, rfl⟩
  | bool b => exact ⟨_, rfl⟩
  | num t => exact hn t
  | str s => exact ⟨_, rfl⟩
  | arr vs => obtain ⟨g, h⟩ := toGoList_total hn vs; exact ⟨_, by simp [toGo, h]; rfl⟩
  | obj vs => obtain ⟨g, h⟩ := toGoMembers_total hn vs; exact ⟨_, by simp [toGo, h]; rfl⟩
theorem toGoList_total {F : Type} {num : List Byte → Option (GoVal F)} (hn : ∀ t, ∃ g, num t = some g) (vs : List JVal) :
    ∃ g, toGoList num vs = some g := by
  cases vs with
  | nil => exact ⟨_, rfl⟩
  | cons v vs =>
    obtain ⟨g, h⟩ := toGo_total hn v
    obtain ⟨gs, h2⟩ := toGoList_total hn vs
    exact ⟨_, by simp [toGoList, h, h2]; rfl⟩
theorem toGoMembers_total {F : Type} {num : List Byte → Option (GoVal F)} (hn : ∀ t, ∃ g, num t = some g)
    (vs : List (List Byte × JVal)) : ∃ g, toGoMembers num vs = some g := by
  cases vs with
  | nil => exact ⟨_, rfl⟩
  | cons kv vs =>
    obtain ⟨k, v⟩ := kv
    obtain ⟨g, h⟩ := toGo_total hn v
    obtain ⟨gs, h2⟩ := toGoMembers_total hn vs
    exact ⟨_, by simp [toGoMembers, h, h2]; rfl⟩
end

theorem sval_iff {env : Env} {c : Byte} {l r : List Byte} :
    SVal env c l r ↔ ∃ t v, c :: l = t ++ r ∧ Value t v ∧ Ends env t v r := by
  unfold SVal
  simp only [rval_iff (cfg := numCfg) (numSem_useNumber _ env)]
  constructor
  · rintro ⟨_, t, v, h1, h2, _, h4⟩; exact ⟨t, v, h1, h2, h4⟩
  · rintro ⟨t, v, h1, h2, h4⟩
    obtain ⟨g, hg⟩ := toGo_total (num := fun t => some (.number t)) (fun _ => ⟨_, rfl⟩) v
    exact ⟨g, t, v, h1, h2, hg, h4⟩

/-- `Skip` on the remaining bytes. -/
theorem runs_skip (pool : Stack) {env : Env} {l r : List Byte} {u : Unit} :
    Runs (Skip pool) env l u r ↔ ∃ w t v, l = w ++ (t ++ r) ∧ Ws w ∧ Value t v ∧ Ends env t v r := by
  rw [skip_iff]
  constructor
  · rintro ⟨c, l1, h1, h2⟩
    obtain ⟨w, hw, _, rfl⟩ := dropWs_eq_cons.mp h1
    obtain ⟨t, v, a1, a2, a4⟩ := sval_iff.mp h2
    exact ⟨w, t, v, by rw [a1], hw, a2, a4⟩
  · rintro ⟨w, t, v, rfl, hw, a2, a4⟩
    obtain ⟨c, t', rfl, hc⟩ := value_cons a2
    exact ⟨c, t' ++ r, dropWs_ws hw hc _, sval_iff.mpr ⟨_, v, rfl, a2, a4⟩⟩

end Jzon
