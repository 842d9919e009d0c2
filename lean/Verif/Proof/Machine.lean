import Verif.Proof.BigStep
import Verif.Proof.Str
import Verif.Proof.Num

/-!
# `Read` and `Skip` as recursive descent
-/

set_option linter.unusedSimpArgs false

namespace Jzon

section
variable {F : Type} {cfg : ReadCfg F} {env : Env}

theorem readArrayLoop_iff (pool : Stack) {n : Nat} {acc : List (GoVal F)} {c : Byte} {l : List Byte} {res : GoVal F}
    {r : List Byte} (hl : l.length < n) :
    Runs (readArrayLoop cfg pool n acc c) env l res r ↔
      ∃ g l1 gs, RVal cfg env c l g l1 ∧ RArr cfg env false l1 gs r ∧ res = .arr (acc ++ g :: gs) := by
  induction n generalizing acc c l with
  | zero => omega
  | succ n ih =>
    unfold readArrayLoop
    have hk : ∀ (m : Nat) (x : List (GoVal F)), pool.initArray.Abs (kinds (NodeStack.initArray x)) := by
      intro m x
      have := initArray_abs pool
      simpa [kinds, NodeStack.initArray] using this
    split
    · rename_i h; subst h
      simp only [runs_bind, runs_remaining, rval_obj, NodeStack.pushObject]
      have key := (machOk cfg env (l.length + 1)).obj .objectBegin true pool.initArray
        ⟨some .empty, [], []⟩ (NodeStack.initArray acc) .empty l res r rfl (hk 0 acc) rfl (by omega)
      constructor
      · rintro ⟨_, _, ⟨rfl, rfl⟩, h⟩
        obtain ⟨kgs, l1, h1, h2⟩ := key.mp h
        simp only [Fin, NodeStack.initArray] at h2
        obtain ⟨gs, l2, h3, h4, h5⟩ := h2
        subst h5
        exact ⟨_, l1, gs, ⟨kgs, rfl, h1⟩, h3, by simpa using h4⟩
      · rintro ⟨_, l1, gs, ⟨kgs, rfl, h1⟩, h3, h4⟩
        refine ⟨_, _, ⟨rfl, rfl⟩, key.mpr ⟨kgs, l1, h1, ?_⟩⟩
        simp only [Fin, NodeStack.initArray]
        exact ⟨gs, r, h3, by simpa using h4, rfl⟩
    · split
      · rename_i h; subst h
        simp only [runs_bind, runs_remaining, rval_arr, NodeStack.pushArray]
        have key := (machOk cfg env (l.length + 1)).arr .arrayBegin true pool.initArray
          ⟨none, [], []⟩ (NodeStack.initArray acc) l res r rfl (hk 0 acc) rfl (by omega)
        constructor
        · rintro ⟨_, _, ⟨rfl, rfl⟩, h⟩
          obtain ⟨kgs, l1, h1, h2⟩ := key.mp h
          simp only [Fin, NodeStack.initArray] at h2
          obtain ⟨gs, l2, h3, h4, h5⟩ := h2
          subst h5
          exact ⟨_, l1, gs, ⟨kgs, rfl, h1⟩, h3, by simpa using h4⟩
        · rintro ⟨_, l1, gs, ⟨kgs, rfl, h1⟩, h3, h4⟩
          refine ⟨_, _, ⟨rfl, rfl⟩, key.mpr ⟨kgs, l1, h1, ?_⟩⟩
          simp only [Fin, NodeStack.initArray]
          exact ⟨gs, r, h3, by simpa using h4, rfl⟩
      · rename_i h1 h2
        simp only [runs_bind, runs_nextToken, rval_scalar h2 h1]
        constructor
        · rintro ⟨g, l1, hs, c1, l2, hc1, h⟩
          have e1 := Runs.length_le hs
          have e2 := dropWs_length hc1
          split at h
          · rename_i hx; subst hx
            rw [runs_pure] at h
            obtain ⟨rfl, rfl⟩ := h
            exact ⟨g, l1, [], hs, .close hc1, by simp⟩
          · split at h
            · simp at h
            · rename_i hx
              have hx := Classical.not_not.mp hx; subst hx
              simp only [runs_bind, runs_nextToken] at h
              obtain ⟨c2, l3, hc2, h⟩ := h
              have e3 := dropWs_length hc2
              obtain ⟨g', l4, gs, hv, hr, rfl⟩ := (ih (by omega)).mp h
              exact ⟨g, l1, g' :: gs, hs, .next hc1 hc2 hv hr, by simp⟩
        · rintro ⟨g, l1, gs, hs, hr, rfl⟩
          have e1 := Runs.length_le hs
          cases hr with
          | close hc =>
            exact ⟨g, l1, hs, _, _, hc, by simp⟩
          | next h0 h hv hr =>
            have e2 := dropWs_length h0
            have e3 := dropWs_length h
            refine ⟨g, l1, hs, _, _, h0, ?_⟩
            rw [if_neg (by decide), if_neg (by simp)]
            simp only [runs_bind, runs_nextToken]
            refine ⟨_, _, h, ?_⟩
            exact (ih (by omega)).mpr ⟨_, _, _, hv, hr, by simp⟩

theorem readObjectLoop_iff (pool : Stack) {n : Nat} {m : GoMap F} {l : List Byte} {res : GoVal F}
    {r : List Byte} (hl : l.length < n) :
    Runs (readObjectLoop cfg pool n m) env l res r ↔
      ∃ key l0 c l1 g l2 kgs, Runs readObjectField env l key l0 ∧ dropWs l0 = c :: l1 ∧ RVal cfg env c l1 g l2 ∧
        RObj cfg env false l2 kgs r ∧ res = .obj (setAll m ((key, g) :: kgs)) := by
  induction n generalizing m l with
  | zero => omega
  | succ n ih =>
    unfold readObjectLoop
    have hk : ∀ (x : GoMap F), pool.initObject.Abs (kinds (NodeStack.initObject x)) := by
      intro x
      have := initObject_abs pool
      simpa [kinds, NodeStack.initObject] using this
    simp only [runs_bind, runs_nextToken]
    constructor
    · rintro ⟨key, l0, h0, c, l1, hc, h⟩
      have e1 := Runs.length_le h0
      have e2 := dropWs_length hc
      refine ⟨key, l0, c, l1, ?_⟩
      split at h
      · rename_i hx; subst hx
        simp only [runs_bind, runs_remaining, NodeStack.pushObject] at h
        obtain ⟨_, _, ⟨rfl, rfl⟩, h⟩ := h
        obtain ⟨kgs, l2, h1, h2⟩ := ((machOk cfg env _).obj .objectBegin true pool.initObject
          _ (NodeStack.initObject m) .empty _ res r rfl (hk m) rfl (by omega)).mp h
        simp only [Fin, NodeStack.initObject] at h2
        obtain ⟨gs, l2, h3, h4, h5⟩ := h2
        subst h5
        exact ⟨_, _, gs, h0, hc, .obj h1, h3, h4⟩
      · split at h
        · rename_i hx; subst hx
          simp only [runs_bind, runs_remaining, NodeStack.pushArray] at h
          obtain ⟨_, _, ⟨rfl, rfl⟩, h⟩ := h
          obtain ⟨kgs, l2, h1, h2⟩ := ((machOk cfg env _).arr .arrayBegin true pool.initObject
            _ (NodeStack.initObject m) _ res r rfl (hk m) rfl (by omega)).mp h
          simp only [Fin, NodeStack.initObject] at h2
          obtain ⟨gs, l2, h3, h4, h5⟩ := h2
          subst h5
          exact ⟨_, _, gs, h0, hc, .arr (by simpa using h1), h3, by simpa [setAll] using h4⟩
        · rename_i hx1 hx2
          simp only [runs_bind, runs_nextToken] at h
          obtain ⟨g, l2, hs, c1, l3, hc1, h⟩ := h
          have e3 := Runs.length_le hs
          have e4 := dropWs_length hc1
          split at h
          · rename_i hx; subst hx
            rw [runs_pure] at h
            obtain ⟨rfl, rfl⟩ := h
            exact ⟨g, l2, [], h0, hc, .scalar ⟨hx2, hx1⟩ hs, .oclose hc1, by simp [setAll]⟩
          · split at h
            · simp at h
            · rename_i hx
              have hx := Classical.not_not.mp hx; subst hx
              simp only [runs_bind, runs_token] at h
              obtain ⟨c2, l4, ⟨l5, hc2, hd⟩, h⟩ := h
              have e5 := dropWs_length hc2
              by_cases hq : c2 = 0x22
              · subst hq
                simp at hd
                subst hd
                obtain ⟨k', l0', c', l1', g', l2', kgs, a1, a2, a3, a4, rfl⟩ := (ih (by omega)).mp h
                exact ⟨g, l2, _, h0, hc, .scalar ⟨hx2, hx1⟩ hs, .onext hc1 hc2 a1 a2 a3 a4, rfl⟩
              · simp [hq] at hd
    · rintro ⟨key, l0, c, l1, g, l2, kgs, h0, hc, hv, hr, rfl⟩
      have e1 := Runs.length_le h0
      have e2 := dropWs_length hc
      refine ⟨key, l0, h0, c, l1, hc, ?_⟩
      cases hv with
      | obj h =>
        simp only [if_true, runs_bind, runs_remaining, NodeStack.pushObject]
        refine ⟨_, _, ⟨rfl, rfl⟩, ((machOk cfg env _).obj .objectBegin true pool.initObject
          _ (NodeStack.initObject m) .empty _ _ r rfl (hk m) rfl (by omega)).mpr ⟨_, _, h, ?_⟩⟩
        simp only [Fin, NodeStack.initObject]
        exact ⟨_, _, hr, rfl, rfl⟩
      | arr h =>
        rw [if_neg (by decide)]
        simp only [if_true, runs_bind, runs_remaining, NodeStack.pushArray]
        refine ⟨_, _, ⟨rfl, rfl⟩, ((machOk cfg env _).arr .arrayBegin true pool.initObject
          _ (NodeStack.initObject m) _ _ r rfl (hk m) rfl (by omega)).mpr ⟨_, _, h, ?_⟩⟩
        simp only [Fin, NodeStack.initObject]
        exact ⟨_, _, hr, rfl, rfl⟩
      | scalar hx hs =>
        rw [if_neg hx.2, if_neg hx.1]
        simp only [runs_bind, runs_nextToken]
        have e3 := Runs.length_le hs
        refine ⟨g, l2, hs, ?_⟩
        cases hr with
        | oclose hc => exact ⟨_, _, hc, by simp [setAll]⟩
        | onext a0 a a1 a2 a3 a4 =>
          have e4 := dropWs_length a0
          have e5 := dropWs_length a
          refine ⟨_, _, a0, ?_⟩
          rw [if_neg (by decide), if_neg (by simp)]
          simp only [runs_bind, runs_token]
          refine ⟨_, _, ⟨_, a, .inl ⟨by simp, rfl⟩⟩, ?_⟩
          exact (ih (by omega)).mpr ⟨_, _, _, _, _, _, _, a1, a2, a3, a4, rfl⟩

theorem readArrayWithStack_iff (pool : Stack) {l : List Byte} {res : GoVal F} {r : List Byte} :
    Runs (readArrayWithStack cfg pool) env l res r ↔ ∃ gs, res = .arr gs ∧ RArr cfg env true l gs r := by
  unfold readArrayWithStack
  simp only [runs_bind, runs_nextToken]
  constructor
  · rintro ⟨c, l1, hc, h⟩
    split at h
    · rename_i hx; subst hx
      rw [runs_pure] at h
      obtain ⟨rfl, rfl⟩ := h
      exact ⟨[], rfl, .close hc⟩
    · simp only [runs_bind, runs_remaining] at h
      obtain ⟨_, _, ⟨rfl, rfl⟩, h⟩ := h
      obtain ⟨g, l2, gs, h1, h2, rfl⟩ := (readArrayLoop_iff pool (by omega)).mp h
      exact ⟨_, by simp, .first hc h1 h2⟩
  · rintro ⟨gs, rfl, h⟩
    cases h with
    | close h => exact ⟨_, _, h, by simp⟩
    | first h hv hr =>
      refine ⟨_, _, h, ?_⟩
      rw [if_neg (by rintro rfl; exact not_rval_close (.inl rfl) hv)]
      simp only [runs_bind, runs_remaining]
      exact ⟨_, _, ⟨rfl, rfl⟩, (readArrayLoop_iff pool (by omega)).mpr ⟨_, _, _, hv, hr, by simp⟩⟩

theorem readObjectWithStack_iff (pool : Stack) {l : List Byte} {res : GoVal F} {r : List Byte} :
    Runs (readObjectWithStack cfg pool) env l res r ↔
      ∃ kgs, res = .obj (setAll .empty kgs) ∧ RObj cfg env true l kgs r := by
  unfold readObjectWithStack
  simp only [runs_bind, runs_token]
  constructor
  · rintro ⟨c, l1, ⟨l', hc, hd⟩, h⟩
    split at h
    · rename_i hx; subst hx
      rw [runs_pure] at h
      obtain ⟨rfl, rfl⟩ := h
      simp at hd
      subst hd
      exact ⟨[], rfl, .oclose hc⟩
    · rename_i hx
      simp only [if_neg hx] at hd
      by_cases hq : c = 0x22
      · subst hq
        simp at hd
        subst hd
        simp only [runs_bind, runs_remaining] at h
        obtain ⟨_, _, ⟨rfl, rfl⟩, h⟩ := h
        obtain ⟨k', l0', c', l1', g', l2', kgs, a1, a2, a3, a4, rfl⟩ := (readObjectLoop_iff pool (by omega)).mp h
        exact ⟨_, rfl, .ofirst hc a1 a2 a3 a4⟩
      · simp [hq] at hd
  · rintro ⟨gs, rfl, h⟩
    cases h with
    | oclose h => exact ⟨_, _, ⟨_, h, .inl ⟨by simp, rfl⟩⟩, by simp [setAll]⟩
    | ofirst h a1 a2 a3 a4 =>
      refine ⟨_, _, ⟨_, h, .inl ⟨by simp, rfl⟩⟩, ?_⟩
      rw [if_neg (by decide)]
      simp only [runs_bind, runs_remaining]
      exact ⟨_, _, ⟨rfl, rfl⟩, (readObjectLoop_iff pool (by omega)).mpr ⟨_, _, _, _, _, _, _, a1, a2, a3, a4, rfl⟩⟩

theorem readFunction_iff (pool : Stack) {c : Byte} {l : List Byte} {g : GoVal F} {r : List Byte} :
    Runs (readFunction cfg pool c) env l g r ↔ RVal cfg env c l g r := by
  unfold readFunction
  split
  · rename_i h; subst h
    rw [readArrayWithStack_iff, rval_arr]
  · split
    · rename_i h; subst h
      rw [readObjectWithStack_iff, rval_obj]
    · rename_i h1 h2
      rw [rval_scalar h1 h2]

theorem read_iff (pool : Stack) {l : List Byte} {g : GoVal F} {r : List Byte} :
    Runs (Read cfg pool) env l g r ↔ ∃ c l1, dropWs l = c :: l1 ∧ RVal cfg env c l1 g r := by
  unfold Read
  simp only [runs_bind, runs_nextToken, readFunction_iff]

end

/-! ## Skip -/

/-- The reader that keeps number literals, with no floating point at all. -/
def numCfg : ReadCfg Unit := ⟨true, ⟨fun _ => .ok (), (), fun _ => ()⟩⟩

section
variable {env : Env}

theorem skipScalar_iff {c : Byte} {l r : List Byte} {u : Unit} :
    Runs (skipScalar c) env l u r ↔ ∃ g, Runs (readScalar numCfg c) env l g r := by
  unfold skipScalar readScalar
  split
  · simp only [runs_skipString', runs_bind, runs_readString, runs_pure]
    constructor
    · rintro ⟨b, s, h1, h2⟩; exact ⟨_, _, _, ⟨b, h1, h2⟩, rfl, rfl⟩
    · rintro ⟨_, _, _, ⟨b, h1, h2⟩, rfl, rfl⟩; exact ⟨b, _, h1, h2⟩
  · split
    · simp only [runs_bind, runs_pure]
      constructor
      · intro h; exact ⟨_, _, _, h, rfl, rfl⟩
      · rintro ⟨_, _, _, h, rfl, rfl⟩; exact h
    · split
      · simp only [runs_bind, runs_pure]
        constructor
        · intro h; exact ⟨_, _, _, h, rfl, rfl⟩
        · rintro ⟨_, _, _, h, rfl, rfl⟩; exact h
      · split
        · simp only [runs_bind, runs_pure]
          constructor
          · intro h; exact ⟨_, _, _, h, rfl, rfl⟩
          · rintro ⟨_, _, _, h, rfl, rfl⟩; exact h
        · split
          · rename_i hn
            simp only [readNumberVal, numCfg, if_true, runs_bind, runs_pure, runs_skipNumber hn,
              runs_readNumberAsString hn]
            constructor
            · rintro ⟨t, h1, h2⟩
              exact ⟨_, c :: t, r, ⟨by simp [h1], h2⟩, rfl, rfl⟩
            · rintro ⟨_, t, _, ⟨h1, h2⟩, rfl, rfl⟩
              obtain ⟨c', t', rfl, _⟩ := number_start h2.1
              simp at h1
              exact ⟨t', h1.2, by rw [h1.1]; exact h2⟩
          · simp

theorem skipObjectField_iff {l r : List Byte} {u : Unit} :
    Runs skipObjectField env l u r ↔ ∃ k, Runs readObjectField env l k r := by
  unfold skipObjectField readObjectField
  simp only [runs_bind, runs_pure, runs_skipString', runs_readString]
  constructor
  · rintro ⟨_, l1, ⟨b, s, h1, h2⟩, c, l2, h3, h4, h5⟩
    exact ⟨s, s, l1, ⟨b, h1, h2⟩, c, l2, h3, rfl, h5⟩
  · rintro ⟨k, s, l1, ⟨b, h1, h2⟩, c, l2, h3, rfl, h5⟩
    exact ⟨(), l1, ⟨b, _, h1, h2⟩, c, l2, h3, trivial, h5⟩

/-- Some array tail is skipped. -/
abbrev SArr (env : Env) (b : Bool) (l r : List Byte) : Prop := ∃ gs, RArr numCfg env b l gs r
abbrev SObj (env : Env) (b : Bool) (l r : List Byte) : Prop := ∃ gs, RObj numCfg env b l gs r
abbrev SVal (env : Env) (c : Byte) (l r : List Byte) : Prop := ∃ g, RVal numCfg env c l g r

/-- What is left to skip inside open containers of the kinds `bits`. -/
def FinS (env : Env) : List Bool → List Byte → List Byte → Prop
  | [], l, r => r = l
  | true :: bs, l, r => ∃ l1, SArr env false l l1 ∧ FinS env bs l1 r
  | false :: bs, l, r => ∃ l1, SObj env false l l1 ∧ FinS env bs l1 r

structure SkipOk (env : Env) (k : Nat) : Prop where
  arr : ∀ (top : StackElem) (b : Bool) (s : Stack) (bits : List Bool) (l r : List Byte) (u : Unit),
    (top = if b then .arrayBegin else .array) → s.Abs bits → l.length < k →
    (Runs (skipWithStack k top s) env l u r ↔ ∃ l1, SArr env b l l1 ∧ FinS env bits l1 r)
  obj : ∀ (top : StackElem) (b : Bool) (s : Stack) (bits : List Bool) (l r : List Byte) (u : Unit),
    (top = if b then .objectBegin else .object) → s.Abs bits → l.length < k →
    (Runs (skipWithStack k top s) env l u r ↔ ∃ l1, SObj env b l l1 ∧ FinS env bits l1 r)

theorem sval_arr {l r : List Byte} : SVal env 0x5B l r ↔ SArr env true l r := by
  simp only [SVal, SArr, rval_arr]
  constructor
  · rintro ⟨_, gs, rfl, h⟩; exact ⟨gs, h⟩
  · rintro ⟨gs, h⟩; exact ⟨_, gs, rfl, h⟩

theorem sval_obj {l r : List Byte} : SVal env 0x7B l r ↔ SObj env true l r := by
  simp only [SVal, SObj, rval_obj]
  constructor
  · rintro ⟨_, gs, rfl, h⟩; exact ⟨gs, h⟩
  · rintro ⟨gs, h⟩; exact ⟨_, gs, rfl, h⟩

theorem sval_scalar {c : Byte} (h1 : c ≠ 0x5B) (h2 : c ≠ 0x7B) {l r : List Byte} {u : Unit} :
    SVal env c l r ↔ Runs (skipScalar c) env l u r := by
  simp only [SVal, rval_scalar h1 h2, skipScalar_iff]

theorem skipElement_iff {k : Nat} (ih : SkipOk env k) {s : Stack} {bits : List Bool} {c : Byte} {l r : List Byte} {u : Unit}
    (hs : s.Abs bits) (hl : l.length < k) :
    Runs (skipElement (skipWithStack k) s c) env l u r ↔
      ∃ l1 l2, SVal env c l l1 ∧ SArr env false l1 l2 ∧ FinS env bits l2 r := by
  obtain ⟨s', hp, ha⟩ := pushArray_abs hs
  unfold skipElement
  split
  · rename_i h; subst h
    simp only [runs_bind, runs_ofExcept, hp, sval_arr]
    constructor
    · rintro ⟨_, _, ⟨e, rfl⟩, h⟩
      cases e
      obtain ⟨l1, h1, h2⟩ := (ih.arr _ true _ _ _ _ _ rfl ha hl).mp h
      obtain ⟨l2, h3, h4⟩ := h2
      exact ⟨l1, l2, h1, h3, h4⟩
    · rintro ⟨l1, l2, h1, h3, h4⟩
      exact ⟨_, _, ⟨rfl, rfl⟩, (ih.arr _ true _ _ _ _ _ rfl ha hl).mpr ⟨l1, h1, l2, h3, h4⟩⟩
  · split
    · rename_i h; subst h
      simp only [runs_bind, runs_ofExcept, hp, sval_obj]
      constructor
      · rintro ⟨_, _, ⟨e, rfl⟩, h⟩
        cases e
        obtain ⟨l1, h1, h2⟩ := (ih.obj _ true _ _ _ _ _ rfl ha hl).mp h
        obtain ⟨l2, h3, h4⟩ := h2
        exact ⟨l1, l2, h1, h3, h4⟩
      · rintro ⟨l1, l2, h1, h3, h4⟩
        exact ⟨_, _, ⟨rfl, rfl⟩, (ih.obj _ true _ _ _ _ _ rfl ha hl).mpr ⟨l1, h1, l2, h3, h4⟩⟩
    · rename_i h1 h2
      simp only [runs_bind, sval_scalar h1 h2 (u := ())]
      constructor
      · rintro ⟨_, l1, h1, h⟩
        have := Runs.length_le h1
        obtain ⟨l2, h3, h4⟩ := (ih.arr _ false _ _ _ _ _ rfl hs (by omega)).mp h
        exact ⟨l1, l2, h1, h3, h4⟩
      · rintro ⟨l1, l2, h1, h3, h4⟩
        have := Runs.length_le h1
        exact ⟨_, l1, h1, (ih.arr _ false _ _ _ _ _ rfl hs (by omega)).mpr ⟨l2, h3, h4⟩⟩

theorem skipMember_iff {k : Nat} (ih : SkipOk env k) {s : Stack} {bits : List Bool} {l r : List Byte} {u : Unit}
    (hs : s.Abs bits) (hl : l.length < k) :
    Runs (skipMember (skipWithStack k) s) env l u r ↔
      ∃ key l0 c l1 l2 l3, Runs readObjectField env l key l0 ∧ dropWs l0 = c :: l1 ∧ SVal env c l1 l2 ∧
        SObj env false l2 l3 ∧ FinS env bits l3 r := by
  obtain ⟨s', hp, ha⟩ := pushObject_abs hs
  unfold skipMember
  simp only [runs_bind, runs_nextToken, skipObjectField_iff]
  constructor
  · rintro ⟨_, l0, ⟨key, h0⟩, c, l1, hc, h⟩
    have e1 := Runs.length_le h0
    have e2 := dropWs_length hc
    refine ⟨key, l0, c, l1, ?_⟩
    split at h
    · rename_i hx; subst hx
      simp only [runs_bind, runs_ofExcept, hp] at h
      obtain ⟨_, _, ⟨e, rfl⟩, h⟩ := h
      cases e
      obtain ⟨l2, h1, l3, h3, h4⟩ := (ih.arr _ true _ _ _ _ _ rfl ha (by omega)).mp h
      exact ⟨l2, l3, h0, hc, sval_arr.mpr h1, h3, h4⟩
    · split at h
      · rename_i hx; subst hx
        simp only [runs_bind, runs_ofExcept, hp] at h
        obtain ⟨_, _, ⟨e, rfl⟩, h⟩ := h
        cases e
        obtain ⟨l2, h1, l3, h3, h4⟩ := (ih.obj _ true _ _ _ _ _ rfl ha (by omega)).mp h
        exact ⟨l2, l3, h0, hc, sval_obj.mpr h1, h3, h4⟩
      · rename_i h1 h2
        simp only [runs_bind] at h
        obtain ⟨_, l2, hs1, h⟩ := h
        have := Runs.length_le hs1
        obtain ⟨l3, h3, h4⟩ := (ih.obj _ false _ _ _ _ _ rfl hs (by omega)).mp h
        exact ⟨l2, l3, h0, hc, (sval_scalar h1 h2).mpr hs1, h3, h4⟩
  · rintro ⟨key, l0, c, l1, l2, l3, h0, hc, hv, h3, h4⟩
    have e1 := Runs.length_le h0
    have e2 := dropWs_length hc
    refine ⟨(), l0, ⟨key, h0⟩, c, l1, hc, ?_⟩
    split
    · rename_i hx; subst hx
      simp only [runs_bind, runs_ofExcept, hp]
      exact ⟨_, _, ⟨rfl, rfl⟩, (ih.arr _ true _ _ _ _ _ rfl ha (by omega)).mpr ⟨l2, sval_arr.mp hv, l3, h3, h4⟩⟩
    · split
      · rename_i hx; subst hx
        simp only [runs_bind, runs_ofExcept, hp]
        exact ⟨_, _, ⟨rfl, rfl⟩, (ih.obj _ true _ _ _ _ _ rfl ha (by omega)).mpr ⟨l2, sval_obj.mp hv, l3, h3, h4⟩⟩
      · rename_i h1 h2
        have hs1 := (sval_scalar h1 h2 (u := ())).mp hv
        have := Runs.length_le hs1
        simp only [runs_bind]
        exact ⟨_, l2, hs1, (ih.obj _ false _ _ _ _ _ rfl hs (by omega)).mpr ⟨l3, h3, h4⟩⟩

theorem skipClose_iff {k : Nat} (ih : SkipOk env k) {s : Stack} {bits : List Bool} {l r : List Byte} {u : Unit}
    (hs : s.Abs bits) (hl : l.length < k) :
    Runs (do
      let (top, s) ← Prog.ofExcept s.pop
      if top = .none then pure () else skipWithStack k top s) env l u r ↔ FinS env bits l r := by
  cases bits with
  | nil =>
    simp only [runs_bind, runs_ofExcept, pop_nil hs, FinS]
    constructor
    · rintro ⟨_, _, ⟨e, rfl⟩, h⟩
      cases e
      simpa using h
    · rintro rfl
      exact ⟨_, _, ⟨rfl, rfl⟩, by simp⟩
  | cons b bits =>
    obtain ⟨s', hp, ha⟩ := pop_cons hs
    simp only [runs_bind, runs_ofExcept, hp]
    cases b with
    | true =>
      have key := ih.arr .array false s' bits l r u rfl ha hl
      simp only [FinS]
      rw [← key]
      constructor
      · rintro ⟨_, _, ⟨e, rfl⟩, h⟩
        cases e
        simpa [elemOf] using h
      · intro h; exact ⟨_, _, ⟨rfl, rfl⟩, by simpa [elemOf] using h⟩
    | false =>
      have key := ih.obj .object false s' bits l r u rfl ha hl
      simp only [FinS]
      rw [← key]
      constructor
      · rintro ⟨_, _, ⟨e, rfl⟩, h⟩
        cases e
        simpa [elemOf] using h
      · intro h; exact ⟨_, _, ⟨rfl, rfl⟩, by simpa [elemOf] using h⟩

theorem skipOk (env : Env) (k : Nat) : SkipOk env k := by
  induction k with
  | zero => exact ⟨by intros; omega, by intros; omega⟩
  | succ k ih =>
    constructor
    · intro top b s bits l r u htop hs hl
      have hobj : top.isObject = false := by cases b <;> simp [htop, StackElem.isObject]
      unfold skipWithStack
      simp only [runs_bind, runs_nextToken, hobj, Bool.false_eq_true, if_false]
      constructor
      · rintro ⟨c, l1, hc, h⟩
        have hlen := dropWs_length hc
        split at h
        · rename_i h1; subst h1
          exact ⟨l1, ⟨[], .close hc⟩, (skipClose_iff ih hs (by omega)).mp h⟩
        · cases b
          · simp only [Bool.false_eq_true, if_false] at htop
            rw [if_pos htop] at h
            split at h
            · simp at h
            · rename_i h2
              have h2 := Classical.not_not.mp h2; subst h2
              simp only [runs_bind, runs_nextToken] at h
              obtain ⟨c, l2, hc2, h⟩ := h
              have hlen2 := dropWs_length hc2
              obtain ⟨l3, l4, ⟨g, h3⟩, ⟨gs, h4⟩, h5⟩ := (skipElement_iff ih hs (by omega)).mp h
              exact ⟨l4, ⟨g :: gs, .next hc hc2 h3 h4⟩, h5⟩
          · simp only [if_true] at htop
            rw [if_neg (by rw [htop]; decide)] at h
            obtain ⟨l3, l4, ⟨g, h3⟩, ⟨gs, h4⟩, h5⟩ := (skipElement_iff ih hs (by omega)).mp h
            exact ⟨l4, ⟨g :: gs, .first hc h3 h4⟩, h5⟩
      · rintro ⟨l1, ⟨gs, h⟩, hf⟩
        cases h with
        | close h =>
          have hlen := dropWs_length h
          refine ⟨_, _, h, ?_⟩
          rw [if_pos rfl]
          exact (skipClose_iff ih hs (by omega)).mpr hf
        | first h hv hr =>
          have hlen := dropWs_length h
          refine ⟨_, _, h, ?_⟩
          rw [if_neg (by rintro rfl; exact not_rval_close (.inl rfl) hv), if_neg (by rw [htop]; decide)]
          exact (skipElement_iff ih hs (by omega)).mpr ⟨_, _, ⟨_, hv⟩, ⟨_, hr⟩, hf⟩
        | next h0 h hv hr =>
          have hlen := dropWs_length h0
          have hlen2 := dropWs_length h
          refine ⟨_, _, h0, ?_⟩
          rw [if_neg (by decide), if_pos (by simpa using htop), if_neg (by simp)]
          simp only [runs_bind, runs_nextToken]
          exact ⟨_, _, h, (skipElement_iff ih hs (by omega)).mpr ⟨_, _, ⟨_, hv⟩, ⟨_, hr⟩, hf⟩⟩
    · intro top b s bits l r u htop hs hl
      have hobj : top.isObject = true := by cases b <;> simp [htop, StackElem.isObject]
      unfold skipWithStack
      simp only [runs_bind, runs_nextToken, hobj, if_true]
      constructor
      · rintro ⟨c, l1, hc, h⟩
        have hlen := dropWs_length hc
        split at h
        · rename_i h1; subst h1
          exact ⟨l1, ⟨[], .oclose hc⟩, (skipClose_iff ih hs (by omega)).mp h⟩
        · cases b
          · simp only [Bool.false_eq_true, if_false] at htop
            rw [if_pos htop] at h
            split at h
            · simp at h
            · rename_i h2
              have h2 := Classical.not_not.mp h2; subst h2
              simp only [runs_bind, runs_nextToken] at h
              obtain ⟨c, l2, hc2, h⟩ := h
              have hlen2 := dropWs_length hc2
              split at h
              · simp at h
              · rename_i h2
                have h2 := Classical.not_not.mp h2; subst h2
                obtain ⟨key, l0, c, l1, l2, l3, h0, h1, ⟨_, h3⟩, ⟨_, h4⟩, h5⟩ := (skipMember_iff ih hs (by omega)).mp h
                exact ⟨l3, ⟨_, .onext hc hc2 h0 h1 h3 h4⟩, h5⟩
          · simp only [if_true] at htop
            rw [if_neg (by rw [htop]; decide)] at h
            split at h
            · simp at h
            · rename_i h2
              have h2 := Classical.not_not.mp h2; subst h2
              obtain ⟨key, l0, c, l1, l2, l3, h0, h1, ⟨_, h3⟩, ⟨_, h4⟩, h5⟩ := (skipMember_iff ih hs (by omega)).mp h
              exact ⟨l3, ⟨_, .ofirst hc h0 h1 h3 h4⟩, h5⟩
      · rintro ⟨l1, ⟨gs, h⟩, hf⟩
        cases h with
        | oclose h =>
          have hlen := dropWs_length h
          refine ⟨_, _, h, ?_⟩
          rw [if_pos rfl]
          exact (skipClose_iff ih hs (by omega)).mpr hf
        | ofirst h hk hc hv hr =>
          have hlen := dropWs_length h
          refine ⟨_, _, h, ?_⟩
          rw [if_neg (by decide), if_neg (by rw [htop]; decide), if_neg (by simp)]
          exact (skipMember_iff ih hs (by omega)).mpr ⟨_, _, _, _, _, _, hk, hc, ⟨_, hv⟩, ⟨_, hr⟩, hf⟩
        | onext h0 h hk hc hv hr =>
          have hlen := dropWs_length h0
          have hlen2 := dropWs_length h
          refine ⟨_, _, h0, ?_⟩
          rw [if_neg (by decide), if_pos (by simpa using htop), if_neg (by simp)]
          simp only [runs_bind, runs_nextToken]
          refine ⟨_, _, h, ?_⟩
          rw [if_neg (by simp)]
          exact (skipMember_iff ih hs (by omega)).mpr ⟨_, _, _, _, _, _, hk, hc, ⟨_, hv⟩, ⟨_, hr⟩, hf⟩

theorem skipArrayLoop_iff (pool : Stack) {n : Nat} {c : Byte} {l r : List Byte} {u : Unit} (hl : l.length < n) :
    Runs (skipArrayLoop pool n c) env l u r ↔ ∃ l1, SVal env c l l1 ∧ SArr env false l1 r := by
  induction n generalizing c l with
  | zero => omega
  | succ n ih =>
    unfold skipArrayLoop
    have ha := initArray_abs pool
    split
    · rename_i h; subst h
      simp only [runs_bind, runs_remaining, sval_obj]
      have key := (skipOk env (l.length + 1)).obj .objectBegin true _ _ l r u rfl ha (by omega)
      simp only [FinS] at key
      constructor
      · rintro ⟨_, _, ⟨rfl, rfl⟩, h⟩
        obtain ⟨l1, h1, l2, h2, rfl⟩ := key.mp h
        exact ⟨l1, h1, h2⟩
      · rintro ⟨l1, h1, h2⟩
        exact ⟨_, _, ⟨rfl, rfl⟩, key.mpr ⟨l1, h1, r, h2, rfl⟩⟩
    · split
      · rename_i h; subst h
        simp only [runs_bind, runs_remaining, sval_arr]
        have key := (skipOk env (l.length + 1)).arr .arrayBegin true _ _ l r u rfl ha (by omega)
        simp only [FinS] at key
        constructor
        · rintro ⟨_, _, ⟨rfl, rfl⟩, h⟩
          obtain ⟨l1, h1, l2, h2, rfl⟩ := key.mp h
          exact ⟨l1, h1, h2⟩
        · rintro ⟨l1, h1, h2⟩
          exact ⟨_, _, ⟨rfl, rfl⟩, key.mpr ⟨l1, h1, r, h2, rfl⟩⟩
      · rename_i h1 h2
        simp only [runs_bind, runs_nextToken, sval_scalar h2 h1 (u := ())]
        constructor
        · rintro ⟨_, l1, hs, c1, l2, hc1, h⟩
          have e1 := Runs.length_le hs
          have e2 := dropWs_length hc1
          split at h
          · rename_i hx; subst hx
            rw [runs_pure] at h
            obtain ⟨rfl, rfl⟩ := h
            exact ⟨l1, hs, [], .close hc1⟩
          · split at h
            · simp at h
            · rename_i hx
              have hx := Classical.not_not.mp hx; subst hx
              simp only [runs_bind, runs_nextToken] at h
              obtain ⟨c2, l3, hc2, h⟩ := h
              have e3 := dropWs_length hc2
              obtain ⟨l4, ⟨g, hv⟩, gs, hr⟩ := (ih (by omega)).mp h
              exact ⟨l1, hs, g :: gs, .next hc1 hc2 hv hr⟩
        · rintro ⟨l1, hs, gs, hr⟩
          have e1 := Runs.length_le hs
          refine ⟨(), l1, hs, ?_⟩
          cases hr with
          | close hc => exact ⟨_, _, hc, by simp⟩
          | next h0 h hv hr =>
            have e2 := dropWs_length h0
            have e3 := dropWs_length h
            refine ⟨_, _, h0, ?_⟩
            rw [if_neg (by decide), if_neg (by simp)]
            simp only [runs_bind, runs_nextToken]
            exact ⟨_, _, h, (ih (by omega)).mpr ⟨_, ⟨_, hv⟩, _, hr⟩⟩

theorem skipObjectLoop_iff (pool : Stack) {n : Nat} {l r : List Byte} {u : Unit} (hl : l.length < n) :
    Runs (skipObjectLoop pool n) env l u r ↔
      ∃ key l0 c l1 l2, Runs readObjectField env l key l0 ∧ dropWs l0 = c :: l1 ∧ SVal env c l1 l2 ∧
        SObj env false l2 r := by
  induction n generalizing l with
  | zero => omega
  | succ n ih =>
    unfold skipObjectLoop
    have ha := initObject_abs pool
    simp only [runs_bind, runs_nextToken, skipObjectField_iff]
    constructor
    · rintro ⟨_, l0, ⟨key, h0⟩, c, l1, hc, h⟩
      have e1 := Runs.length_le h0
      have e2 := dropWs_length hc
      refine ⟨key, l0, c, l1, ?_⟩
      split at h
      · rename_i hx; subst hx
        simp only [runs_bind, runs_remaining] at h
        obtain ⟨_, _, ⟨rfl, rfl⟩, h⟩ := h
        obtain ⟨l2, h1, l3, h2, rfl⟩ := ((skipOk env _).obj .objectBegin true _ _ _ r u rfl ha (by omega)).mp h
        exact ⟨l2, h0, hc, sval_obj.mpr h1, h2⟩
      · split at h
        · rename_i hx; subst hx
          simp only [runs_bind, runs_remaining] at h
          obtain ⟨_, _, ⟨rfl, rfl⟩, h⟩ := h
          obtain ⟨l2, h1, l3, h2, rfl⟩ := ((skipOk env _).arr .arrayBegin true _ _ _ r u rfl ha (by omega)).mp h
          exact ⟨l2, h0, hc, sval_arr.mpr h1, h2⟩
        · rename_i hx1 hx2
          simp only [runs_bind, runs_nextToken] at h
          obtain ⟨_, l2, hs, c1, l3, hc1, h⟩ := h
          have e3 := Runs.length_le hs
          have e4 := dropWs_length hc1
          refine ⟨l2, h0, hc, (sval_scalar hx2 hx1).mpr hs, ?_⟩
          split at h
          · rename_i hx; subst hx
            rw [runs_pure] at h
            obtain ⟨rfl, rfl⟩ := h
            exact ⟨[], .oclose hc1⟩
          · split at h
            · simp at h
            · rename_i hx
              have hx := Classical.not_not.mp hx; subst hx
              simp only [runs_bind, runs_token] at h
              obtain ⟨c2, l4, ⟨l5, hc2, hd⟩, h⟩ := h
              have e5 := dropWs_length hc2
              by_cases hq : c2 = 0x22
              · subst hq
                simp at hd
                subst hd
                obtain ⟨k', l0', c', l1', l2', a1, a2, ⟨_, a3⟩, _, a4⟩ := (ih (by omega)).mp h
                exact ⟨_, .onext hc1 hc2 a1 a2 a3 a4⟩
              · simp [hq] at hd
    · rintro ⟨key, l0, c, l1, l2, h0, hc, hv, hr⟩
      have e1 := Runs.length_le h0
      have e2 := dropWs_length hc
      refine ⟨(), l0, ⟨key, h0⟩, c, l1, hc, ?_⟩
      split
      · rename_i hx; subst hx
        simp only [runs_bind, runs_remaining]
        exact ⟨_, _, ⟨rfl, rfl⟩, ((skipOk env _).obj .objectBegin true _ _ _ r u rfl ha (by omega)).mpr
          ⟨l2, sval_obj.mp hv, r, hr, rfl⟩⟩
      · split
        · rename_i hx; subst hx
          simp only [runs_bind, runs_remaining]
          exact ⟨_, _, ⟨rfl, rfl⟩, ((skipOk env _).arr .arrayBegin true _ _ _ r u rfl ha (by omega)).mpr
            ⟨l2, sval_arr.mp hv, r, hr, rfl⟩⟩
        · rename_i hx1 hx2
          have hs := (sval_scalar hx2 hx1 (u := ())).mp hv
          simp only [runs_bind, runs_nextToken]
          have e3 := Runs.length_le hs
          refine ⟨(), l2, hs, ?_⟩
          obtain ⟨gs, hr⟩ := hr
          cases hr with
          | oclose hc => exact ⟨_, _, hc, by simp⟩
          | onext a0 a a1 a2 a3 a4 =>
            have e4 := dropWs_length a0
            have e5 := dropWs_length a
            refine ⟨_, _, a0, ?_⟩
            rw [if_neg (by decide), if_neg (by simp)]
            simp only [runs_bind, runs_token]
            refine ⟨_, _, ⟨_, a, .inl ⟨by simp, rfl⟩⟩, ?_⟩
            exact (ih (by omega)).mpr ⟨_, _, _, _, _, a1, a2, ⟨_, a3⟩, _, a4⟩

theorem skipArrayWithStack_iff (pool : Stack) {l r : List Byte} {u : Unit} :
    Runs (skipArrayWithStack pool) env l u r ↔ SArr env true l r := by
  unfold skipArrayWithStack
  simp only [runs_bind, runs_nextToken]
  constructor
  · rintro ⟨c, l1, hc, h⟩
    split at h
    · rename_i hx; subst hx
      rw [runs_pure] at h
      obtain ⟨rfl, rfl⟩ := h
      exact ⟨[], .close hc⟩
    · simp only [runs_bind, runs_remaining] at h
      obtain ⟨_, _, ⟨rfl, rfl⟩, h⟩ := h
      obtain ⟨l2, ⟨g, h1⟩, gs, h2⟩ := (skipArrayLoop_iff pool (by omega)).mp h
      exact ⟨_, .first hc h1 h2⟩
  · rintro ⟨gs, h⟩
    cases h with
    | close h => exact ⟨_, _, h, by simp⟩
    | first h hv hr =>
      refine ⟨_, _, h, ?_⟩
      rw [if_neg (by rintro rfl; exact not_rval_close (.inl rfl) hv)]
      simp only [runs_bind, runs_remaining]
      exact ⟨_, _, ⟨rfl, rfl⟩, (skipArrayLoop_iff pool (by omega)).mpr ⟨_, ⟨_, hv⟩, _, hr⟩⟩

theorem skipObjectWithStack_iff (pool : Stack) {l r : List Byte} {u : Unit} :
    Runs (skipObjectWithStack pool) env l u r ↔ SObj env true l r := by
  unfold skipObjectWithStack
  simp only [runs_bind, runs_token]
  constructor
  · rintro ⟨c, l1, ⟨l', hc, hd⟩, h⟩
    split at h
    · rename_i hx; subst hx
      rw [runs_pure] at h
      obtain ⟨rfl, rfl⟩ := h
      simp at hd
      subst hd
      exact ⟨[], .oclose hc⟩
    · rename_i hx
      simp only [if_neg hx] at hd
      by_cases hq : c = 0x22
      · subst hq
        simp at hd
        subst hd
        simp only [runs_bind, runs_remaining] at h
        obtain ⟨_, _, ⟨rfl, rfl⟩, h⟩ := h
        obtain ⟨k', l0', c', l1', l2', a1, a2, ⟨_, a3⟩, _, a4⟩ := (skipObjectLoop_iff pool (by omega)).mp h
        exact ⟨_, .ofirst hc a1 a2 a3 a4⟩
      · simp [hq] at hd
  · rintro ⟨gs, h⟩
    cases h with
    | oclose h => exact ⟨_, _, ⟨_, h, .inl ⟨by simp, rfl⟩⟩, by simp⟩
    | ofirst h a1 a2 a3 a4 =>
      refine ⟨_, _, ⟨_, h, .inl ⟨by simp, rfl⟩⟩, ?_⟩
      rw [if_neg (by decide)]
      simp only [runs_bind, runs_remaining]
      exact ⟨_, _, ⟨rfl, rfl⟩, (skipObjectLoop_iff pool (by omega)).mpr ⟨_, _, _, _, _, a1, a2, ⟨_, a3⟩, _, a4⟩⟩

theorem skipFunction_iff (pool : Stack) {c : Byte} {l r : List Byte} {u : Unit} :
    Runs (skipFunction pool c) env l u r ↔ SVal env c l r := by
  unfold skipFunction
  split
  · rename_i h; subst h
    rw [skipArrayWithStack_iff, sval_arr]
  · split
    · rename_i h; subst h
      rw [skipObjectWithStack_iff, sval_obj]
    · rename_i h1 h2
      rw [sval_scalar h1 h2]

theorem skip_iff (pool : Stack) {l r : List Byte} {u : Unit} :
    Runs (Skip pool) env l u r ↔ ∃ c l1, dropWs l = c :: l1 ∧ SVal env c l1 r := by
  unfold Skip
  simp only [runs_bind, runs_nextToken, skipFunction_iff]

end

end Jzon
