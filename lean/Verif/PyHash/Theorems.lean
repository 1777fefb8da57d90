import Verif.PyHash.Model
import Verif.Format.Theorems
/-! C101: formats as keys of Python's dictionaries. -/
namespace Verif.PyHash
open Verif.Format

/-! ### Helper facts -/

theorem bits_same {a b : Impl} (h : SameMode a b) : bits a = bits b ∧ a.kind.name = b.kind.name := by
  obtain ⟨h1, h2, h3, h4, _, _⟩ := h
  refine ⟨?_, by rw [h1]⟩
  unfold bits
  simp only [h2, h3, h4, Impl.isBranchless, Impl.isCompact, Impl.capabilities, h1]

theorem mode_same (str : String → UInt64) : ∀ {a b : Option Impl}, modeEq a b = true → hashMode str a = hashMode str b
  | none, _, h => by simp [modeEq] at h
  | some _, none, h => by simp [modeEq] at h
  | some a, some b, h => by
    have := bits_same (eq_iff_same.1 h)
    simp [hashMode, this.1, this.2]

theorem packSum_same (str : String → UInt64) : ∀ (l m : List (Option Impl)) (i : Nat), l.length = m.length →
    (l.zip m).all (fun p => modeEq p.1 p.2) = true → packSum str i l = packSum str i m
  | [], [], _, _, _ => rfl
  | [], _ :: _, _, h, _ => by simp at h
  | _ :: _, [], _, h, _ => by simp at h
  | a :: l, b :: m, i, h, h' => by
    simp only [List.zip_cons_cons, List.all_cons, Bool.and_eq_true] at h'
    rw [packSum, packSum, mode_same str h'.1, packSum_same str l m (i + 1) (by simpa using h) h'.2]

theorem pack_same (str : String → UInt64) {p q : Pack} (h : p.eq q = true) : hashPack str p = hashPack str q := by
  unfold Pack.eq at h
  simp only [Bool.and_eq_true, decide_eq_true_eq] at h
  rw [hashPack, hashPack, packSum_same str _ _ 0 h.1 h.2, h.1]

theorem packs_same (str : String → UInt64) : ∀ (l m : List Pack), l.length = m.length →
    (l.zip m).all (fun p => p.1.eq p.2) = true → ∀ i : Nat, (l[i]?).map (hashPack str) = (m[i]?).map (hashPack str)
  | [], [], _, _, _ => rfl
  | [], _ :: _, h, _, _ => by simp at h
  | _ :: _, [], h, _, _ => by simp at h
  | a :: l, b :: m, h, h', i => by
    simp only [List.zip_cons_cons, List.all_cons, Bool.and_eq_true] at h'
    cases i with
    | zero => simp [pack_same str h'.1]
    | succ i => simpa using packs_same str l m (by simpa using h) h'.2 i

theorem formatSum_same (str : String → UInt64) {l m : List Pack}
    (h : ∀ i : Nat, (l[i]?).map (hashPack str) = (m[i]?).map (hashPack str)) : ∀ (os : List Int) (i : Nat),
    formatSum str l i os = formatSum str m i os
  | [], _ => rfl
  | o :: os, i => by
    have hi := h i
    rw [formatSum, formatSum, formatSum_same str h os (i + 1)]
    cases hl : l[i]? <;> cases hm : m[i]? <;> simp only [hl, hm, Option.map_none, Option.map_some] at hi
    · rfl
    · cases hi
    · cases hi
    · simp only [Option.some.injEq] at hi
      simp only [hi]

theorem ordering_same : ∀ (l m : List Int), l.length = m.length → (l.zip m).all (fun p => p.1 == p.2) = true → l = m
  | [], [], _, _ => rfl
  | [], _ :: _, h, _ => by simp at h
  | _ :: _, [], h, _ => by simp at h
  | a :: l, b :: m, h, h' => by
    simp only [List.zip_cons_cons, List.all_cons, Bool.and_eq_true, beq_iff_eq] at h'
    rw [h'.1, ordering_same l m (by simpa using h) h'.2]

/-! ### Hashes -/

/-- Formats that compare equal have the same hash, or both have none: for all formats of any order, whatever the hash of
texts is. -/
theorem equal_same_hash (str : String → UInt64) (a b : Fmt) (h : a.eq b = true) :
    hashFormat str a = hashFormat str b := by
  unfold Fmt.eq at h
  simp only [Bool.and_eq_true, decide_eq_true_eq] at h
  obtain ⟨⟨⟨h1, h2⟩, h3⟩, h4⟩ := h
  rw [hashFormat, hashFormat, ordering_same _ _ h2 h3, formatSum_same str (packs_same str _ _ h1 h4)]

theorem packSum_defined (str : String → UInt64) : ∀ (l : List (Option Impl)) (i : Nat), (∀ m ∈ l, m.isSome) →
    (packSum str i l).isSome
  | [], _, _ => rfl
  | none :: _, _, h => by simpa using h none (by simp)
  | some m :: l, i, h => by
    have := packSum_defined str l (i + 1) fun x hx => h x (by simp [hx])
    rw [packSum, hashMode]
    cases hs : packSum str (i + 1) l with
    | none => simp [hs] at this
    | some s => rfl

theorem formatSum_defined (str : String → UInt64) (packs : List Pack) (hp : ∀ p ∈ packs, ∀ m ∈ p.modes, m.isSome) :
    ∀ (os : List Int) (i : Nat), (formatSum str packs i os).isSome = true ↔
      (os = [] ∨ i + os.length ≤ packs.length) ∧ ∀ o ∈ os, o < 2147483647
  | [], i => by simp [formatSum]
  | o :: os, i => by
    have ih := formatSum_defined str packs hp os (i + 1)
    rw [formatSum]
    cases hi : packs[i]? with
    | none =>
      have : packs.length ≤ i := List.getElem?_eq_none_iff.1 hi
      simp
      omega
    | some p =>
      have hlt : i < packs.length := (List.getElem?_eq_some_iff.1 hi).1
      have hd : ∃ x, hashPack str p = some x := by
        have := packSum_defined str p.modes 0 (hp p (List.mem_of_getElem? hi))
        obtain ⟨x, hx⟩ := Option.isSome_iff_exists.1 this
        exact ⟨_, by rw [hashPack, hx]; rfl⟩
      obtain ⟨x, hx⟩ := hd
      by_cases ho : o < 2147483647
      · have e : (addPack o (hashPack str p) (formatSum str packs (i + 1) os)).isSome =
            (formatSum str packs (i + 1) os).isSome := by
          rw [hx]; cases formatSum str packs (i + 1) os <;> rfl
        simp only [ho, if_true, e, ih, List.mem_cons, forall_eq_or_imp, true_and, List.length_cons, reduceCtorEq, false_or]
        refine and_congr_left fun _ => ?_
        cases os with
        | nil => simp; omega
        | cons _ _ => simp only [reduceCtorEq, false_or, List.length_cons]; omega
      · simp [ho]

/-- The hash of a format is defined exactly if there are at least as many packs as modes: for all formats that the
constructors make whose ordering has no entry as large as the largest `int`. -/
theorem hash_defined (str : String → UInt64) (f : Fmt) (hf : Made' f) (ho : ∀ o ∈ f.ordering, o < 2147483647) :
    (hashFormat str f).isSome = true ↔ f.order ≤ f.packs.length := by
  rw [hashFormat, Option.isSome_map, formatSum_defined str f.packs (fun p hp => hf.isSome hp)]
  rw [← hf.2]
  constructor
  · rintro ⟨h | h, _⟩
    · simp [h]
    · omega
  · exact fun h => ⟨.inr (by omega), ho⟩

/-- So the hash of every format all of whose packs have one mode, as those made from lists of mode formats, is defined. -/
theorem simple_hash_defined (str : String → UInt64) (f : Fmt) (hf : Made' f) (h1 : ∀ p ∈ f.packs, p.modes.length = 1)
    (ho : ∀ o ∈ f.ordering, o < 2147483647) : (hashFormat str f).isSome = true := by
  rw [hash_defined str f hf ho]
  unfold Fmt.order Fmt.modes
  have : ∀ l : List Pack, (∀ p ∈ l, p.modes.length = 1) → (l.flatMap Pack.modes).length = l.length := by
    intro l
    induction l with
    | nil => intro _; rfl
    | cons p l ih =>
      intro h
      rw [List.flatMap_cons, List.length_append, ih fun q hq => h q (by simp [hq]), h p (by simp), List.length_cons]
      omega
  exact Nat.le_of_eq (this _ h1)

example : ∀ p ∈ CSR.packs, p.modes.length = 1 := by decide
example : ∀ o ∈ CSR.ordering, o < 2147483647 := by decide

/-- Formats with a pack of several modes and no empty packs cannot be hashed: a vector is read outside of its bounds. -/
theorem packed_hash_fails (str : String → UInt64) (f : Fmt) (hf : Made' f) (h : f.packs.length < f.order) :
    hashFormat str f = none := by
  have := (formatSum_defined str f.packs (fun p hp => hf.isSome hp) f.ordering 0)
  have hn : ¬ (formatSum str f.packs 0 f.ordering).isSome = true := by
    rw [this, hf.2]
    rintro ⟨h' | h', _⟩
    · have := hf.2; rw [h'] at this; simp at this; omega
    · omega
  rw [hashFormat]
  cases hs : formatSum str f.packs 0 f.ordering with
  | none => rfl
  | some s => simp [hs] at hn

def onePack : Fmt := mkFmt [⟨[some (mkDense true true false), some (mkCompressed false true true false defaultAlloc)]⟩]

example : Made' onePack ∧ onePack.packs.length < onePack.order := by
  refine ⟨⟨fun p hp m hm => ?_, by decide⟩, by decide⟩
  simp only [onePack, mkFmt, List.mem_singleton] at hp
  subst hp
  simp only [List.mem_cons, List.not_mem_nil, or_false] at hm
  rcases hm with rfl | rfl
  · exact ⟨_, rfl, .dense _ _ _⟩
  · exact ⟨_, rfl, .compressed _ _ _ _ _⟩

/-! ### Dictionaries -/

theorem fetch_store {α : Type} (str : String → UInt64) {h h' : UInt64} {k k' : Fmt} (v : α) (hk : Made' k) (hk' : Made' k')
    (ek : hashFormat str k = some h) (ek' : hashFormat str k' = some h') : ∀ d : List (Entry α),
    (∀ e ∈ d, Made' e.key ∧ hashFormat str e.key = some e.hash) →
    fetch h k (store h' k' v d) = if k'.eq k = true then some v else fetch h k d
  | [], _ => by
    by_cases c : k'.eq k = true
    · have : h' = h := by
        have := equal_same_hash str _ _ c
        rw [ek, ek'] at this
        exact Option.some.inj this
      simp [store, fetch, c, this]
    · simp [store, fetch, c]
  | e :: d, hd => by
    obtain ⟨me, ee⟩ := hd e (by simp)
    have ih := fetch_store str v hk hk' ek ek' d fun x hx => hd x (by simp [hx])
    unfold store
    by_cases c1 : e.hash = h' ∧ e.key.eq k' = true
    · rw [if_pos c1]
      by_cases c : k'.eq k = true
      · have h3 := format_eq_trans me hk' hk c1.2 c
        have h4 : e.hash = h := by
          have := equal_same_hash str _ _ h3
          rw [ee, ek] at this
          exact Option.some.inj this
        simp [fetch, h3, h4, c]
      · have h3 : ¬ e.key.eq k = true := fun h3 =>
          c (format_eq_trans hk' me hk (format_eq_symm me hk' c1.2) h3)
        simp [fetch, h3, c]
    · rw [if_neg c1]
      by_cases c2 : e.hash = h ∧ e.key.eq k = true
      · have c : ¬ k'.eq k = true := by
          intro c
          apply c1
          have h3 := format_eq_trans me hk hk' c2.2 (format_eq_symm hk' hk c)
          refine ⟨?_, h3⟩
          have := equal_same_hash str _ _ h3
          rw [ee, ek'] at this
          exact Option.some.inj this
        rw [fetch, if_pos c2, if_neg c, fetch, if_pos c2]
      · rw [fetch, if_neg c2, ih, fetch, if_neg c2]

theorem store_keys {α : Type} (str : String → UInt64) {h : UInt64} {k : Fmt} (v : α) (hk : Made' k)
    (ek : hashFormat str k = some h) : ∀ d : List (Entry α),
    (∀ e ∈ d, Made' e.key ∧ hashFormat str e.key = some e.hash) →
    ∀ e ∈ store h k v d, Made' e.key ∧ hashFormat str e.key = some e.hash
  | [], _, e, he => by
    simp only [store, List.mem_singleton] at he
    subst he
    exact ⟨hk, ek⟩
  | x :: d, hd, e, he => by
    unfold store at he
    split at he
    · rcases List.mem_cons.1 he with rfl | he
      · exact hd x (by simp)
      · exact hd e (by simp [he])
    · rcases List.mem_cons.1 he with rfl | he
      · exact hd _ (by simp)
      · exact store_keys str v hk ek d (fun y hy => hd y (by simp [hy])) e he

/-- The value after a history, by its last assignment. -/
def after {α : Type} (k : Fmt) (init : Option α) : History α → Option α
  | [] => init
  | (k', v) :: rest => after k (if k'.eq k = true then some v else init) rest

theorem after_some {α : Type} (k : Fmt) (v : α) : ∀ (hist : History α) (init : Option α),
    after k init hist = some v ↔ LastFor hist k v ∨ (NeverFor hist k ∧ init = some v)
  | [], init => by
    simp only [after, NeverFor, LastFor]
    constructor
    · exact fun h => .inr ⟨by simp, h⟩
    · rintro (⟨b, k', a, h, _⟩ | h)
      · simp at h
      · exact h.2
  | (k', v') :: rest, init => by
    rw [after, after_some k v rest]
    have hn : NeverFor ((k', v') :: rest) k ↔ k'.eq k = false ∧ NeverFor rest k := by simp [NeverFor]
    have hl : LastFor ((k', v') :: rest) k v ↔ LastFor rest k v ∨ (k'.eq k = true ∧ v' = v ∧ NeverFor rest k) := by
      constructor
      · rintro ⟨b, x, a, h, h1, h2⟩
        cases b with
        | nil =>
          simp only [List.nil_append, List.cons.injEq, Prod.mk.injEq] at h
          obtain ⟨⟨rfl, rfl⟩, rfl⟩ := h
          exact .inr ⟨h1, rfl, h2⟩
        | cons y b =>
          simp only [List.cons_append, List.cons.injEq] at h
          exact .inl ⟨b, x, a, h.2, h1, h2⟩
      · rintro (⟨b, x, a, h, h1, h2⟩ | ⟨h1, rfl, h2⟩)
        · exact ⟨(k', v') :: b, x, a, by rw [h]; rfl, h1, h2⟩
        · exact ⟨[], k', rest, rfl, h1, h2⟩
    rw [hn, hl]
    cases hc : k'.eq k
    · simp
    · simp [and_comm]

theorem after_none {α : Type} (k : Fmt) : ∀ (hist : History α) (init : Option α),
    after k init hist = none ↔ NeverFor hist k ∧ init = none
  | [], init => by simp [after, NeverFor]
  | (k', v') :: rest, init => by
    have hn : NeverFor ((k', v') :: rest) k ↔ k'.eq k = false ∧ NeverFor rest k := by simp [NeverFor]
    rw [after, after_none k rest, hn]
    cases hc : k'.eq k <;> simp

theorem fetch_build {α : Type} (str : String → UInt64) {h : UInt64} {k : Fmt} (hk : Made' k)
    (ek : hashFormat str k = some h) : ∀ (hist : History α) (d d' : List (Entry α)), (∀ e ∈ hist, Made' e.1) →
    (∀ e ∈ d, Made' e.key ∧ hashFormat str e.key = some e.hash) → build str d hist = some d' →
    fetch h k d' = after k (fetch h k d) hist
  | [], d, d', _, _, hb => by
    simp only [build, Option.some.injEq] at hb
    rw [hb, after]
  | (k', v) :: rest, d, d', hm, hd, hb => by
    have mk' := hm (k', v) (by simp)
    rw [build] at hb
    split at hb
    · cases hb
    · rename_i h' eh
      rw [fetch_build str hk ek rest _ d' (fun e he => hm e (by simp [he])) (store_keys str v mk' eh d hd) hb,
        fetch_store str v hk mk' ek eh d hd, after]

/-- For all histories of assignments to a dictionary whose keys are formats, whatever the hash of texts is: the value of a
format is the one that was last stored for an equal format, and there is none exactly if none was stored for one. -/
theorem dictionary_partial {α : Type} (str : String → UInt64) (hist : History α) (hm : ∀ e ∈ hist, Made' e.1) (d : List (Entry α))
    (hb : build str [] hist = some d) (k : Fmt) (hk : Made' k) (h : UInt64) (ek : hashFormat str k = some h) :
    (∀ v, fetch h k d = some v ↔ LastFor hist k v) ∧ (fetch h k d = none ↔ NeverFor hist k) := by
  have e := fetch_build str hk ek hist [] d hm (by simp) hb
  refine ⟨fun v => ?_, ?_⟩
  · rw [e, after_some]; simp [fetch]
  · rw [e, after_none]; simp [fetch]

example : ((build (fun _ => 5) [] [(CSR, 1), (CSC, 2), (CSR, 3)]).map List.length) = some 2 := by decide +kernel

end Verif.PyHash
