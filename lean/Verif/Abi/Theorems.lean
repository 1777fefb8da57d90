import Verif.Abi.Lemmas
/-!
C79: kernels work on the arrays of the tensors they are called with, and tensors get the arrays that kernels made.
-/
namespace Verif.Abi

open Names (Name noDigitEnd)

/-- The names of a kernel can be told apart: variables are no pointers, their names do not end in digits, the tensors
have different names, and no generated name is the name of a tensor. Without this see `same_name_fails`,
`tensor_name_fails`, `pointer_name_fails` and C33. -/
structure GoodNames (k : Kernel) : Prop where
  keywords : ∀ n ∈ k.keywords, noDigitEnd n
  plain : PlainVars k.uses
  tensors : ((k.result :: k.inputs).map k.tn).Nodup
  apart : ∀ t ∈ k.result :: k.inputs, ∀ e ∈ k.found.map, e.2 ≠ k.tn t

/-- A kernel mentions fields that the structs of its tensors have. -/
def GoodUses (k : Kernel) (storages : Nat → Storage) : Prop :=
  ∀ p, Use.prop p ∈ k.uses → p.tensor ∈ k.result :: k.inputs → FieldOf (storages p.tensor) p

theorem shaped_slots {s : Storage} {t : Struct} (h : Shaped s t) {i : Nat} {kind : Kind} (hk : s.kinds[i]? = some kind) :
    ∃ sl, t.indices[i]? = some sl ∧ sl.length = slotCount kind := by
  have h2 := congrArg (fun l => l[i]?) h.2
  simp only [List.getElem?_map, hk, Option.map_some] at h2
  exact Option.map_eq_some_iff.1 h2

theorem field_read {s : Storage} {t : Struct} (h : Shaped s t) {k : PropKey} (hf : FieldOf s k) :
    (readField t k.field k.mode k.index).isSome = true := by
  rw [FieldOf] at hf
  cases hk : k.field with
  | dimension =>
    rw [hk] at hf
    simp [readField, h.1, hf.1]
  | values => rfl
  | fillValue => rfl
  | indices =>
    rw [hk] at hf
    have : ∃ kind, s.kinds[k.mode]? = some kind ∧ k.index < slotCount kind := by
      rcases hf with ⟨h1, h2 | h2⟩ | ⟨h1, h2⟩
      · exact ⟨_, h1, by rw [h2]; decide⟩
      · exact ⟨_, h1, by rw [h2]; decide⟩
      · exact ⟨_, h1, by rw [h2]; decide⟩
    obtain ⟨kind, h1, h2⟩ := this
    obtain ⟨sl, h3, h4⟩ := shaped_slots h h1
    rw [readField, h3, Option.bind_some, List.getElem?_eq_getElem (h4 ▸ h2)]
    rfl

theorem field_canon {s : Storage} {k : PropKey} (hf : FieldOf s k) : Canon k := by
  rw [FieldOf] at hf
  rw [Canon]
  cases hk : k.field with
  | dimension => rw [hk] at hf; simp [hf.2]
  | indices => simp
  | values => rw [hk] at hf; simp [hf.1, hf.2]
  | fillValue => rw [hk] at hf; simp [hf.1, hf.2]

/-- C79. The fields that the mode formats ask for exist. -/
theorem level_fields (s : Storage) (t i m : Nat) (kind : Kind) (hk : s.kinds[i]? = some kind) (hm : m < s.dims.length) :
    ∀ p, some p ∈ levelProps t kind m (i + 1) → FieldOf s p := by
  intro p hp
  cases kind <;> simp [levelProps] at hp
  · subst hp; exact ⟨hm, rfl⟩
  · rcases hp with rfl | rfl
    · exact Or.inl ⟨hk, Or.inl rfl⟩
    · exact Or.inl ⟨hk, Or.inr rfl⟩
  · subst hp; exact Or.inr ⟨hk, rfl⟩

/-- C79. The struct of a new storage has the shape that is assumed everywhere. -/
theorem new_struct (s : Storage) : Shaped s (initStruct s) := by
  refine ⟨rfl, ?_⟩
  rw [initStruct, List.map_map]
  apply List.map_congr_left
  intro k _
  simp

/-- C79. The arrays that a mode format works on are those of its level: the size for a dense level, positions and then
coordinates for a compressed level, coordinates in the second place for a singleton level. -/
theorem level_arrays (h : Heap) (v : PropKey → Option Val) (t m i : Nat) (kind : Kind) (l : LevelData)
    (hs : SameKind kind l) (hk : KernelLevel h v t m i l) :
    match l with
    | .dense n => ∃ a, levelProps t kind m (i + 1) = [some a] ∧ v a = some (.int n)
    | .compressed pos crd => ∃ a b p q, levelProps t kind m (i + 1) = [some a, some b] ∧ v a = some (.ptr (some p)) ∧
        v b = some (.ptr (some q)) ∧ Holds 4 h p pos ∧ Holds 4 h q crd
    | .singleton crd => ∃ b q, levelProps t kind m (i + 1) = [none, some b] ∧ v b = some (.ptr (some q)) ∧ Holds 4 h q crd := by
  cases kind <;> cases l <;> first | exact hs.elim | skip
  · exact ⟨_, rfl, hk⟩
  · obtain ⟨p, q, a, b, c, d⟩ := hk
    exact ⟨_, _, p, q, rfl, a, c, b, d⟩
  · obtain ⟨q, c, d⟩ := hk
    exact ⟨_, q, rfl, c, d⟩

theorem mem_found {k : Kernel} {p : PropKey} (hu : Use.prop p ∈ k.uses) (ht : p.tensor ∈ k.result :: k.inputs) :
    ∃ n, (Key.prop p, n) ∈ k.found.map :=
  visits_prop k.tn (k.result :: k.inputs) k.uses _ p hu ht

theorem found_only {k : Kernel} {p : PropKey} {n : Name} (h : (Key.prop p, n) ∈ k.found.map) :
    Use.prop p ∈ k.uses ∧ p.tensor ∈ k.result :: k.inputs := by
  rcases visits_only k.tn (k.result :: k.inputs) k.uses _ p n h with h | h
  · cases h
  · exact h

/-- C79 (entering). A generated function compiles as far as its first lines go, each variable that stands for a field
of a tensor has the value of that field in the struct that was passed for the tensor, and different variables have
different names. -/
theorem prologue_partial (k : Kernel) (hg : GoodNames k) (storages : Nat → Storage) (hu : GoodUses k storages)
    (structs : Nat → Struct) (hs : ∀ t ∈ k.result :: k.inputs, Shaped (storages t) (structs t)) :
    ∃ e, enter k.tn [k.result] k.inputs k.found structs = some e ∧
      (∀ t ∈ k.result :: k.inputs, e (k.tn t) = some (.struct t)) ∧
      (∀ p, Use.prop p ∈ k.uses → p.tensor ∈ k.result :: k.inputs →
        varValue k.found e p = readField (structs p.tensor) p.field p.mode p.index ∧ (varValue k.found e p).isSome = true) ∧
      ∀ a b n, k.found.name a = some n → k.found.name b = some n → a = b := by
  obtain ⟨hk, hn, _⟩ := found_distinct k.keywords k.tn (k.result :: k.inputs) k.uses hg.keywords hg.plain
  change (k.found.map.map (·.1)).Nodup at hk
  change (k.found.map.map (·.2)).Nodup at hn
  obtain ⟨e0, h1, h2, h3⟩ := declareParams_spec k.tn (k.result :: k.inputs) (fun _ => none) hg.tensors (fun _ _ => rfl)
  have hperm := sortProps_perm (before [k.result] k.inputs) (varDecls k.found)
  have hvd := varDecls_nodup k.found.map hk hn k.found.counters
  have hd : ∀ d ∈ sortProps (before [k.result] k.inputs) (varDecls k.found), (Key.prop d.1, d.2) ∈ k.found.map :=
    fun d hd => mem_varDecls.1 (hperm.mem_iff.1 hd)
  obtain ⟨e, h4, h5, h6⟩ := runDecls_spec k.tn structs (sortProps (before [k.result] k.inputs) (varDecls k.found)) e0
    ((hperm.map (·.2)).nodup_iff.2 hvd.2)
    (fun d hm => by
      rw [h3 d.2 (fun t ht hc => hg.apart t ht _ (hd d hm) hc.symm)])
    (fun d hm => h2 _ (found_only (hd d hm)).2)
    (fun d hm => field_read (hs _ (found_only (hd d hm)).2) (hu _ (found_only (hd d hm)).1 (found_only (hd d hm)).2))
  refine ⟨e, ?_, ?_, ?_, ?_⟩
  · rw [enter, List.singleton_append, h1, Option.bind_some, prologue]; exact h4
  · intro t ht
    rw [h6 _ (fun d hm hc => hg.apart t ht _ (hd d hm) hc)]
    exact h2 t ht
  · intro p hp ht
    obtain ⟨n, hn'⟩ := mem_found hp ht
    have hv : varValue k.found e p = readField (structs p.tensor) p.field p.mode p.index := by
      rw [varValue, name_of_mem hk hn', Option.bind_some]
      exact h5 (p, n) (hperm.mem_iff.2 (mem_varDecls.2 hn'))
    exact ⟨hv, hv ▸ field_read (hs _ ht) (hu p hp ht)⟩
  · intro a b n ha hb
    have ha := mem_of_name ha
    have hb := mem_of_name hb
    have hinj : ∀ (l : List (Key × Name)), (l.map (·.2)).Nodup → (a, n) ∈ l → (b, n) ∈ l → a = b := by
      intro l
      induction l with
      | nil => intro _ h; cases h
      | cons x xs ih =>
        intro hnd h1 h2
        rw [List.map_cons, List.nodup_cons] at hnd
        rcases List.mem_cons.1 h1 with e1 | h1
        · rcases List.mem_cons.1 h2 with e2 | h2
          · rw [← e1] at e2; exact (congrArg Prod.fst e2).symm
          · exact absurd (List.mem_map.2 ⟨_, h2, by rw [← e1]⟩) hnd.1
        · rcases List.mem_cons.1 h2 with e2 | h2
          · exact absurd (List.mem_map.2 ⟨_, h1, by rw [← e2]⟩) hnd.1
          · exact ih hnd.2 h1 h2
    exact hinj _ hn ha hb

/-- C79 (leaving). After the last lines of a function, the struct of the result has in each field that the function
mentions the value of the variable for it, all other fields are unchanged, and so are all other structs. -/
theorem epilogue_partial (k : Kernel) (hg : GoodNames k) (storages : Nat → Storage) (hu : GoodUses k storages)
    (structs : Nat → Struct) (hs : ∀ t ∈ k.result :: k.inputs, Shaped (storages t) (structs t)) (e : Env)
    (ht : ∀ t ∈ k.result :: k.inputs, e (k.tn t) = some (.struct t))
    (hv : ∀ p, Use.prop p ∈ k.uses → p.tensor = k.result → p.field = .indices ∨ p.field = .values →
      ∃ q, varValue k.found e p = some (.ptr q)) :
    ∃ structs', runWrites e (epilogue k.tn [k.result] k.found) structs = some structs' ∧
      (∀ p, Use.prop p ∈ k.uses → p.tensor = k.result → p.field = .indices ∨ p.field = .values →
        readKey structs' p = varValue k.found e p) ∧
      (∀ p, Canon p → ¬ (Use.prop p ∈ k.uses ∧ p.tensor = k.result ∧ (p.field = .indices ∨ p.field = .values)) →
        readKey structs' p = readKey structs p) ∧
      (∀ t, t ≠ k.result → structs' t = structs t) ∧
      ∀ t, (structs' t).dims = (structs t).dims ∧
        (structs' t).indices.map List.length = (structs t).indices.map List.length := by
  obtain ⟨hk, hn, _⟩ := found_distinct k.keywords k.tn (k.result :: k.inputs) k.uses hg.keywords hg.plain
  change (k.found.map.map (·.1)).Nodup at hk
  change (k.found.map.map (·.2)).Nodup at hn
  have hperm := sortProps_perm (before [k.result] []) ((varDecls k.found).filter fun e => e.1.tensor ∈ [k.result])
  have hvd := varDecls_nodup k.found.map hk hn k.found.counters
  have hd : ∀ d, d ∈ sortProps (before [k.result] []) ((varDecls k.found).filter fun e => e.1.tensor ∈ [k.result]) ↔
      ((Key.prop d.1, d.2) ∈ k.found.map ∧ d.1.tensor = k.result) := by
    intro d
    rw [hperm.mem_iff, List.mem_filter, mem_varDecls]
    simp
  have hval : ∀ d : PropKey × Name, (Key.prop d.1, d.2) ∈ k.found.map → varValue k.found e d.1 = e d.2 := by
    intro d hm
    rw [varValue, name_of_mem hk hm]; rfl
  obtain ⟨ss, h1, h2, h3, h4, h5⟩ := runWrites_spec k.tn e
    (sortProps (before [k.result] []) ((varDecls k.found).filter fun e => e.1.tensor ∈ [k.result])) structs
    ((hperm.map (·.1)).nodup_iff.2 (List.Nodup.sublist (List.Sublist.map _ List.filter_sublist) hvd.1))
    (fun d hm => field_canon (hu _ (found_only ((hd d).1 hm).1).1 (found_only ((hd d).1 hm).1).2))
    (fun d hm => ht _ (found_only ((hd d).1 hm).1).2)
    (fun d hm => field_read (hs _ (found_only ((hd d).1 hm).1).2)
      (hu _ (found_only ((hd d).1 hm).1).1 (found_only ((hd d).1 hm).1).2))
    (fun d hm hf => by
      rw [← hval d ((hd d).1 hm).1]
      exact hv d.1 (found_only ((hd d).1 hm).1).1 ((hd d).1 hm).2 hf)
  refine ⟨ss, h1, ?_, ?_, ?_, h5⟩
  · intro p hp hpt hf
    obtain ⟨n, hn'⟩ := mem_found hp (hpt ▸ List.mem_cons_self)
    rw [hval (p, n) hn']
    exact h2 (p, n) ((hd (p, n)).2 ⟨hn', hpt⟩) hf
  · intro p hc hnp
    apply h3 p hc
    rintro hf d hm rfl
    exact hnp ⟨(found_only ((hd d).1 hm).1).1, ((hd d).1 hm).2, hf⟩
  · intro t htr
    apply h4
    intro d hm hc
    exact htr (hc ▸ ((hd d).1 hm).2)

theorem host_packLevel {h : Heap} {kind : Kind} {a : List HArr} {l : LevelData} (hh : HostLevel h kind a l)
    (s : List (Option Ptr)) : (packLevel kind a s).isSome = true := by
  rw [HostLevel.eq_def] at hh
  split at hh
  · rfl
  · rfl
  · rfl
  · exact hh.elim

/-- C79 (operands). In the struct of an operand the fields of each level lead to the arrays and sizes that the storage
has. -/
theorem packed_operand (h : Heap) (s : Storage) (t : Struct) (ls : List LevelData) (ho : Operand h s t ls) (x : Nat) :
    ∃ t', pack s t = some t' ∧ Shaped s t' ∧ t'.vals = some s.vals.ptr ∧
      ∀ (i m : Nat) l, s.ordering[i]? = some m → ls[i]? = some l →
        KernelLevel h (fun p => readField t' p.field p.mode p.index) x m i l := by
  have hlen : t.indices.length = s.kinds.length := by
    have := congrArg List.length ho.shaped.2
    simpa using this
  obtain ⟨xs, hxs⟩ := packLevels_some s.kinds s.index t.indices ho.holds.1 hlen (by
    intro i kind a sl hk ha hs
    obtain ⟨l, hl⟩ : ∃ l, ls[i]? = some l :=
      ⟨_, List.getElem?_eq_getElem (by rw [ho.holds.2.1]; exact (List.getElem?_eq_some_iff.1 hk).1)⟩
    exact host_packLevel (ho.holds.2.2 i kind a l hk ha hl) sl)
  obtain ⟨hl1, hget⟩ := packLevels_get _ _ _ _ hxs
  refine ⟨{ t with indices := xs, vals := some s.vals.ptr, fill := some s.fill }, by rw [pack, hxs]; rfl, ⟨ho.shaped.1, ?_⟩, rfl, ?_⟩
  · apply List.ext_getElem?
    intro i
    rw [List.getElem?_map, List.getElem?_map]
    cases hk : s.kinds[i]? with
    | none =>
      rw [List.getElem?_eq_none (by rw [hl1]; exact List.getElem?_eq_none_iff.1 hk)]; rfl
    | some kind =>
      obtain ⟨a, sl, y, ha, hs, hy, hp⟩ := hget i kind hk
      obtain ⟨sl', hs', hsl⟩ := shaped_slots ho.shaped hk
      rw [hs] at hs'
      cases hs'
      rw [hy, Option.map_some, Option.map_some, ← hsl]
      cases kind with
      | dense =>
        obtain ⟨b, _, rfl⟩ := Option.map_eq_some_iff.1 hp
        simp
      | sparse =>
        rw [packLevel] at hp
        split at hp
        · cases hp; rfl
        · obtain ⟨b, _, hp⟩ := Option.bind_eq_some_iff.1 hp
          obtain ⟨c, _, rfl⟩ := Option.map_eq_some_iff.1 hp
          simp
      | singleton =>
        rw [packLevel] at hp
        split at hp
        · cases hp; rfl
        · obtain ⟨c, _, rfl⟩ := Option.map_eq_some_iff.1 hp
          simp
  · intro i m l hm hl
    have hil : i < s.kinds.length := by rw [← ho.holds.2.1]; exact (List.getElem?_eq_some_iff.1 hl).1
    obtain ⟨kind, hk⟩ : ∃ k, s.kinds[i]? = some k := ⟨_, List.getElem?_eq_getElem hil⟩
    obtain ⟨a, sl, y, ha, hs, hy, hp⟩ := hget i kind hk
    have hh := ho.holds.2.2 i kind a l hk ha hl
    have hb := ho.int32 a (List.mem_of_getElem? ha)
    obtain ⟨sl', hs', hsl⟩ := shaped_slots ho.shaped hk
    rw [hs] at hs'
    cases hs'
    rw [HostLevel.eq_def] at hh
    split at hh
    · rename_i b n
      rw [KernelLevel]
      simp [readField, ho.shaped.1, ho.dense i m n hk hl hm]
    · rename_i b c pos crd
      obtain ⟨_, _, h1, h2⟩ := hh
      rw [hb b (by simp)] at h1
      rw [hb c (by simp)] at h2
      simp only [packLevel, List.isEmpty_cons, Bool.false_eq_true, if_false, List.getElem?_cons_zero, Option.bind_some,
        List.getElem?_cons_succ, Option.map_some, Option.some.injEq] at hp
      subst hp
      refine ⟨b.ptr, c.ptr, ?_, h1, ?_, h2⟩
      · simp [readField, hy, List.getElem?_set, hsl, slotCount]
      · simp [readField, hy, List.getElem?_set, hsl, slotCount]
    · rename_i b c crd
      obtain ⟨_, h2⟩ := hh
      rw [hb c (by simp)] at h2
      simp only [packLevel, List.isEmpty_cons, Bool.false_eq_true, if_false, List.getElem?_cons_zero, Option.bind_some,
        List.getElem?_cons_succ, Option.map_some, Option.some.injEq] at hp
      subst hp
      exact ⟨c.ptr, by simp [readField, hy, List.getElem?_set, hsl, slotCount], h2⟩
    · exact hh.elim

theorem packLevel_length {kind : Kind} {a : List HArr} {sl y : List (Option Ptr)} (hp : packLevel kind a sl = some y) :
    y.length = sl.length := by
  cases kind with
  | dense => obtain ⟨b, _, rfl⟩ := Option.map_eq_some_iff.1 hp; simp
  | sparse =>
    rw [packLevel] at hp
    split at hp
    · cases hp; rfl
    · obtain ⟨b, _, hp⟩ := Option.bind_eq_some_iff.1 hp
      obtain ⟨c, _, rfl⟩ := Option.map_eq_some_iff.1 hp
      simp
  | singleton =>
    rw [packLevel] at hp
    split at hp
    · cases hp; rfl
    · obtain ⟨c, _, rfl⟩ := Option.map_eq_some_iff.1 hp
      simp

theorem target_packLevel {s : Storage} {t : Struct} (h : Target s t) {i : Nat} {kind : Kind} {a : List HArr}
    (hk : s.kinds[i]? = some kind) (ha : s.index[i]? = some a) (sl : List (Option Ptr)) :
    (packLevel kind a sl).isSome = true := by
  by_cases hd : kind = .dense
  · subst hd
    obtain ⟨b, rfl⟩ := h.dense i a hk ha
    rfl
  · rcases h.other i kind a hk hd ha with rfl | ⟨b, c, rfl⟩
    · cases kind <;> first | exact absurd rfl hd | rfl
    · cases kind <;> first | exact absurd rfl hd | rfl

theorem packed_target (s : Storage) (t : Struct) (h : Target s t) :
    ∃ t', pack s t = some t' ∧ Shaped s t' ∧ t'.vals = some s.vals.ptr ∧
      (∀ (i : Nat) a, s.kinds[i]? = some .dense → s.index[i]? = some [a] → t'.indices[i]? = some [some a.ptr]) ∧
      ∀ (i : Nat) k a b, s.kinds[i]? = some k → k ≠ .dense → s.index[i]? = some [a, b] →
        ∃ sl, t'.indices[i]? = some sl ∧ sl[1]? = some (some b.ptr) ∧ (k = .sparse → sl[0]? = some (some a.ptr)) := by
  have hlen : t.indices.length = s.kinds.length := by
    have := congrArg List.length h.shaped.2
    simpa using this
  obtain ⟨xs, hxs⟩ := packLevels_some s.kinds s.index t.indices h.length hlen (by
    intro i kind a sl hk ha hs
    exact target_packLevel h hk ha sl)
  obtain ⟨hl1, hget⟩ := packLevels_get _ _ _ _ hxs
  refine ⟨{ t with indices := xs, vals := some s.vals.ptr, fill := some s.fill }, by rw [pack, hxs]; rfl, ⟨h.shaped.1, ?_⟩, rfl, ?_, ?_⟩
  · apply List.ext_getElem?
    intro i
    rw [List.getElem?_map, List.getElem?_map]
    cases hk : s.kinds[i]? with
    | none => rw [List.getElem?_eq_none (by rw [hl1]; exact List.getElem?_eq_none_iff.1 hk)]; rfl
    | some kind =>
      obtain ⟨a, sl, y, ha, hs, hy, hp⟩ := hget i kind hk
      obtain ⟨sl', hs', hsl⟩ := shaped_slots h.shaped hk
      rw [hs] at hs'
      cases hs'
      rw [hy, Option.map_some, Option.map_some, ← hsl, packLevel_length hp]
  · intro i a hk ha
    obtain ⟨a', sl, y, ha', hs, hy, hp⟩ := hget i .dense hk
    rw [ha] at ha'
    cases ha'
    obtain ⟨sl', hs', hsl⟩ := shaped_slots h.shaped hk
    rw [hs] at hs'
    cases hs'
    simp only [packLevel, List.getElem?_cons_zero, Option.map_some, Option.some.injEq] at hp
    subst hp
    match sl, hsl with
    | [z], _ => exact hy
  · intro i k a b hk hd ha
    obtain ⟨a', sl, y, ha', hs, hy, hp⟩ := hget i k hk
    rw [ha] at ha'
    cases ha'
    obtain ⟨sl', hs', hsl⟩ := shaped_slots h.shaped hk
    rw [hs] at hs'
    cases hs'
    refine ⟨y, hy, ?_⟩
    cases k with
    | dense => exact absurd rfl hd
    | sparse =>
      simp only [packLevel, List.isEmpty_cons, Bool.false_eq_true, if_false, List.getElem?_cons_zero, Option.bind_some,
        List.getElem?_cons_succ, Option.map_some, Option.some.injEq] at hp
      subst hp
      simp [List.getElem?_set, hsl, slotCount]
    | singleton =>
      simp only [packLevel, List.isEmpty_cons, Bool.false_eq_true, if_false, List.getElem?_cons_zero, Option.bind_some,
        List.getElem?_cons_succ, Option.map_some, Option.some.injEq] at hp
      subst hp
      simp [List.getElem?_set, hsl, slotCount]

theorem packAll_spec (storages : Nat → Storage) : ∀ (ts : List Nat) (structs : Nat → Struct), ts.Nodup →
    (∀ t ∈ ts, ∃ t', pack (storages t) (structs t) = some t') →
    ∃ ss, packAll storages structs ts = some ss ∧ (∀ t ∈ ts, pack (storages t) (structs t) = some (ss t)) ∧
      ∀ t, t ∉ ts → ss t = structs t
  | [], structs, _, _ => ⟨structs, rfl, (fun _ h => nomatch h), fun _ _ => rfl⟩
  | t :: ts, structs, hn, h => by
    rw [List.nodup_cons] at hn
    obtain ⟨t', ht⟩ := h t List.mem_cons_self
    have hne : ∀ u ∈ ts, u ≠ t := fun u hu hc => hn.1 (hc ▸ hu)
    obtain ⟨ss, h1, h2, h3⟩ := packAll_spec storages ts (setStruct structs t t') hn.2 (by
      intro u hu
      rw [setStruct, if_neg (hne u hu)]
      exact h u (List.mem_cons_of_mem _ hu))
    refine ⟨ss, ?_, ?_, ?_⟩
    · rw [packAll, ht]; exact h1
    · intro u hu
      rcases List.mem_cons.1 hu with rfl | hu
      · rw [ht, h3 _ hn.1, setStruct, if_pos rfl]
      · have := h2 u hu
        rw [setStruct, if_neg (hne u hu)] at this
        exact this
    · intro u hu
      rw [h3 u (fun hc => hu (List.mem_cons_of_mem _ hc)), setStruct, if_neg]
      exact fun hc => hu (hc ▸ List.mem_cons_self)

/-- C79 (results). If the arrays that a struct leads to have some contents, whose sizes fit together, then the storage
that is made from it has these contents, and its values are the values of the struct. -/
theorem unpacked_result (csize : Nat) (h : Heap) (t : Struct) (s : Storage) (ls : List LevelData) (v : Ptr)
    (hl : ls.length = s.kinds.length) (ht : t.indices.length = s.kinds.length) (hf : Fits 1 ls) (hv : t.vals = some v)
    (hh : ∀ (i : Nat) k l, s.kinds[i]? = some k → ls[i]? = some l → SameKind k l ∧
      (∀ d, l = .dense d → ∃ p, readField t .indices i 0 = some (.ptr (some p)) ∧ Holds 4 h p [d]) ∧
      (k ≠ .dense → KernelLevel h (fun p => readField t p.field p.mode p.index) 0 0 i l)) :
    ∃ s', unpack csize h t s = some (s', positions 1 ls) ∧ HostHolds h s' ls ∧ Int32Index s' ∧ s'.kinds = s.kinds ∧
      s'.ordering = s.ordering ∧ s'.dims = s.dims ∧ s'.vals = ⟨v, positions 1 ls, csize⟩ := by
  have hrd : ∀ (i j : Nat) q, readField t .indices i j = some (.ptr q) → ∃ sl, t.indices[i]? = some sl ∧ sl[j]? = some q := by
    intro i j q hr
    rw [readField] at hr
    obtain ⟨x, hx, he⟩ := Option.map_eq_some_iff.1 hr
    obtain ⟨sl, hsl, hx⟩ := Option.bind_eq_some_iff.1 hx
    cases he
    exact ⟨sl, hsl, hx⟩
  obtain ⟨as, h1, h2, h3, h4⟩ := unpackLevels_spec h s.kinds t.indices ls 1 hl ht hf (by
    intro i k sl l hk hs hli
    obtain ⟨hsame, hd, hk'⟩ := hh i k l hk hli
    cases k with
    | dense =>
      cases l with
      | dense d =>
        obtain ⟨p, hp, hhd⟩ := hd d rfl
        obtain ⟨sl', e1, e2⟩ := hrd _ _ _ hp
        rw [hs] at e1; cases e1
        exact ⟨p, e2, hhd 0 d rfl⟩
      | _ => exact hsame.elim
    | sparse =>
      cases l with
      | compressed pos crd =>
        obtain ⟨p, q, hp, hp', hq, hq'⟩ := hk' (by decide)
        obtain ⟨sl', e1, e2⟩ := hrd _ _ _ hp
        obtain ⟨sl'', e1', e2'⟩ := hrd _ _ _ hq
        rw [hs] at e1; cases e1
        rw [hs] at e1'; cases e1'
        exact ⟨p, q, e2, e2', hp', hq'⟩
      | _ => exact hsame.elim
    | singleton =>
      cases l with
      | singleton crd =>
        obtain ⟨q, hq, hq'⟩ := hk' (by decide)
        obtain ⟨sl'', e1', e2'⟩ := hrd _ _ _ hq
        rw [hs] at e1'; cases e1'
        exact ⟨q, e2', hq'⟩
      | _ => exact hsame.elim)
  exact ⟨{ s with index := as, vals := ⟨v, positions 1 ls, csize⟩ }, by rw [unpack, h1, Option.bind_some, hv]; rfl,
    ⟨h2, hl, h4⟩, h3, rfl, rfl, rfl, rfl⟩

/-- The fields of the result's levels that are index arrays, and its values, are mentioned. -/
def MentionsResult (k : Kernel) (s : Storage) : Prop :=
  Use.prop ⟨k.result, .values, 0, 0⟩ ∈ k.uses ∧
    ∀ (i : Nat) kind, s.kinds[i]? = some kind → (kind = .sparse → Use.prop ⟨k.result, .indices, i, 0⟩ ∈ k.uses) ∧
      (kind ≠ .dense → Use.prop ⟨k.result, .indices, i, 1⟩ ∈ k.uses)

theorem kernelLevel_congr {h : Heap} {v w : PropKey → Option Val} {t m i : Nat} {t' m' : Nat} {l : LevelData}
    (hl : ∀ d, l ≠ .dense d) (h0 : (∃ pos crd, l = .compressed pos crd) → v ⟨t, .indices, i, 0⟩ = w ⟨t', .indices, i, 0⟩)
    (h1 : v ⟨t, .indices, i, 1⟩ = w ⟨t', .indices, i, 1⟩) (hk : KernelLevel h v t m i l) : KernelLevel h w t' m' i l := by
  cases l with
  | dense d => exact absurd rfl (hl d)
  | compressed pos crd =>
    obtain ⟨p, q, a, b, c, d⟩ := hk
    exact ⟨p, q, by rw [← h0 ⟨_, _, rfl⟩]; exact a, b, by rw [← h1]; exact c, d⟩
  | singleton crd =>
    obtain ⟨q, c, d⟩ := hk
    exact ⟨q, by rw [← h1]; exact c, d⟩

/-- C79 (calls). A call of a kernel that allocates its result. In the variables that its body gets, every level of every
operand has the contents that the operand's storage has. If the body leaves arrays with some contents in the variables
for the result's levels, then the result's storage has exactly these contents afterwards. -/
theorem call_partial (k : Kernel) (hg : GoodNames k) (ha : k.allocates = true) (csize : Nat) (storages : Nat → Storage)
    (hu : GoodUses k storages) (hm : MentionsResult k (storages k.result)) (structs : Nat → Struct) (h : Heap)
    (levels : Nat → List LevelData) (hin : ∀ t ∈ k.inputs, Operand h (storages t) (structs t) (levels t))
    (hres : Target (storages k.result) (structs k.result)) (body : Env → Heap → Env × Heap) (out : List LevelData)
    (hlen : out.length = (storages k.result).kinds.length) (hfit : Fits 1 out)
    (hsame : ∀ (i : Nat) kind l, (storages k.result).kinds[i]? = some kind → out[i]? = some l → SameKind kind l)
    (hbody : ∀ (e : Env) (v : PropKey → Option Val),
      (∀ p, Use.prop p ∈ k.uses → p.tensor ∈ k.result :: k.inputs → varValue k.found e p = v p) →
      (∀ t ∈ k.inputs, v ⟨t, .values, 0, 0⟩ = some (.ptr (some (storages t).vals.ptr)) ∧
        ∀ (i m : Nat) l, (storages t).ordering[i]? = some m → (levels t)[i]? = some l → KernelLevel h v t m i l) →
      (∀ t ∈ k.result :: k.inputs, e (k.tn t) = some (.struct t)) →
      (∀ t ∈ k.result :: k.inputs, (body e h).1 (k.tn t) = some (.struct t)) ∧
      (∀ (i : Nat) l, out[i]? = some l → (∀ d, l ≠ .dense d) →
        KernelLevel (body e h).2 (varValue k.found (body e h).1) k.result 0 i l) ∧
      (∀ (i : Nat) a d, out[i]? = some (.dense d) → (storages k.result).index[i]? = some [a] →
        Holds 4 (body e h).2 a.ptr [d]) ∧
      ∃ p, varValue k.found (body e h).1 ⟨k.result, .values, 0, 0⟩ = some (.ptr (some p))) :
    ∃ (e : Env) (s : Storage) (p : Ptr), call k csize storages structs h body = some (s, positions 1 out, (body e h).2) ∧
      HostHolds (body e h).2 s out ∧ Int32Index s ∧ s.kinds = (storages k.result).kinds ∧
      s.dims = (storages k.result).dims ∧
      varValue k.found (body e h).1 ⟨k.result, .values, 0, 0⟩ = some (.ptr (some p)) ∧
      s.vals = ⟨p, positions 1 out, csize⟩ := by
  have hpn : (k.result :: k.inputs).Nodup := by
    have : ∀ l : List Nat, (l.map k.tn).Nodup → l.Nodup := by
      intro l
      induction l with
      | nil => intro _; exact List.nodup_nil
      | cons x xs ih =>
        intro h
        rw [List.map_cons, List.nodup_cons] at h
        exact List.nodup_cons.2 ⟨fun hx => h.1 (List.mem_map.2 ⟨x, hx, rfl⟩), ih h.2⟩
    exact this _ hg.tensors
  -- packing
  have hpk : ∀ t ∈ k.result :: k.inputs, ∃ t', pack (storages t) (structs t) = some t' := by
    intro t ht
    rcases List.mem_cons.1 ht with rfl | ht
    · obtain ⟨t', h1, _⟩ := packed_target _ _ hres; exact ⟨t', h1⟩
    · obtain ⟨t', h1, _⟩ := packed_operand _ _ _ _ (hin t ht) 0; exact ⟨t', h1⟩
  obtain ⟨ss, hss, hss2, _⟩ := packAll_spec storages (k.result :: k.inputs) structs hpn hpk
  obtain ⟨tr, ht1, ht2, _, ht4, _⟩ := packed_target _ _ hres
  have htr : tr = ss k.result := by
    have := hss2 k.result List.mem_cons_self
    rw [ht1] at this
    exact Option.some.inj this
  subst htr
  have hsh : ∀ t ∈ k.result :: k.inputs, Shaped (storages t) (ss t) := by
    intro t ht
    rcases List.mem_cons.1 ht with rfl | ht
    · exact ht2
    · obtain ⟨t', h1, h2, _⟩ := packed_operand _ _ _ _ (hin t ht) 0
      have := hss2 t (List.mem_cons_of_mem _ ht)
      rw [h1] at this
      rw [← Option.some.inj this]; exact h2
  -- entering
  obtain ⟨e, he, het, hev, _⟩ := prologue_partial k hg storages hu ss hsh
  obtain ⟨b1, b2, b3, p, b4⟩ := hbody e (readKey ss) (fun q hq ht => (hev q hq ht).1) (by
    intro t ht
    obtain ⟨t', h1, h2, h3, h4⟩ := packed_operand _ _ _ _ (hin t ht) t
    have := hss2 t (List.mem_cons_of_mem _ ht)
    rw [h1] at this
    have := Option.some.inj this
    subst this
    refine ⟨by rw [readKey, readField, h3], ?_⟩
    intro i m l hm hl
    have := h4 i m l hm hl
    cases l with
    | dense n => exact this
    | compressed pos crd => exact this
    | singleton crd => exact this) het
  -- leaving
  have hkind : ∀ (i : Nat) l, out[i]? = some l → ∃ kind, (storages k.result).kinds[i]? = some kind ∧ SameKind kind l := by
    intro i l hl
    have hi : i < (storages k.result).kinds.length := by rw [← hlen]; exact (List.getElem?_eq_some_iff.1 hl).1
    exact ⟨_, List.getElem?_eq_getElem hi, hsame i _ l (List.getElem?_eq_getElem hi) hl⟩
  obtain ⟨ss', w1, w2, w3, w4, w5⟩ := epilogue_partial k hg storages hu ss hsh (body e h).1 b1 (by
    intro q hq hqt hqf
    have hF := hu q hq (hqt ▸ List.mem_cons_self)
    obtain ⟨t, f, m, j⟩ := q
    dsimp only at hqt hqf
    subst hqt
    rcases hqf with rfl | rfl
    · have hmk : ∃ kind, (storages k.result).kinds[m]? = some kind ∧ ((kind = .sparse ∧ (j = 0 ∨ j = 1)) ∨ (kind = .singleton ∧ j = 1)) := by
        rcases hF with ⟨a, b⟩ | ⟨a, b⟩
        · exact ⟨_, a, Or.inl ⟨rfl, b⟩⟩
        · exact ⟨_, a, Or.inr ⟨rfl, b⟩⟩
      obtain ⟨kind, a, b⟩ := hmk
      have hmo : m < out.length := by rw [hlen]; exact (List.getElem?_eq_some_iff.1 a).1
      have hl := List.getElem?_eq_getElem hmo
      have hsk := hsame m kind _ a hl
      rcases b with ⟨rfl, b⟩ | ⟨rfl, rfl⟩
      · cases hx : out[m] with
        | dense d => rw [hx] at hsk; exact hsk.elim
        | singleton c => rw [hx] at hsk; exact hsk.elim
        | compressed pos crd =>
          rw [hx] at hl
          obtain ⟨p, q, c1, _, c2, _⟩ := b2 m _ hl (by simp)
          rcases b with rfl | rfl
          · exact ⟨_, c1⟩
          · exact ⟨_, c2⟩
      · cases hx : out[m] with
        | dense d => rw [hx] at hsk; exact hsk.elim
        | compressed pos c => rw [hx] at hsk; exact hsk.elim
        | singleton crd =>
          rw [hx] at hl
          obtain ⟨q, c2, _⟩ := b2 m _ hl (by simp)
          exact ⟨_, c2⟩
    · obtain ⟨hm0, hj0⟩ := hF
      dsimp only at hm0 hj0
      subst hm0; subst hj0
      exact ⟨_, b4⟩)
  have hidx : ∀ (i j : Nat), Use.prop ⟨k.result, .indices, i, j⟩ ∈ k.uses →
      readField (ss' k.result) .indices i j = varValue k.found (body e h).1 ⟨k.result, .indices, i, j⟩ :=
    fun i j hq => w2 ⟨k.result, .indices, i, j⟩ hq rfl (Or.inl rfl)
  have hvals : (ss' k.result).vals = some p := by
    have := w2 ⟨k.result, .values, 0, 0⟩ hm.1 rfl (Or.inr rfl)
    rw [b4, readKey, readField] at this
    simpa using this
  have hlen' : (ss' k.result).indices.length = (storages k.result).kinds.length := by
    have := congrArg List.length ((w5 k.result).2.trans ht2.2)
    simpa using this
  obtain ⟨s', u1, u2, u3, u4, _, u6, u7⟩ := unpacked_result csize (body e h).2 (ss' k.result) (storages k.result) out p hlen hlen'
    hfit hvals (by
      intro i kind l hk hl
      have hsk := hsame i kind l hk hl
      refine ⟨hsk, ?_, ?_⟩
      · rintro d rfl
        cases kind with
        | dense =>
          obtain ⟨as, has⟩ : ∃ as, (storages k.result).index[i]? = some as :=
            ⟨_, List.getElem?_eq_getElem (by rw [hres.length]; exact (List.getElem?_eq_some_iff.1 hk).1)⟩
          obtain ⟨a, rfl⟩ := hres.dense i as hk has
          refine ⟨a.ptr, ?_, b3 i a d hl has⟩
          have hc := w3 ⟨k.result, .indices, i, 0⟩ ⟨by simp, by simp⟩ (by
            rintro ⟨hq, _, _⟩
            rcases hu _ hq List.mem_cons_self with ⟨a, _⟩ | ⟨a, _⟩
            · rw [hk] at a; cases a
            · rw [hk] at a; cases a)
          rw [readKey, readKey] at hc
          dsimp only at hc
          rw [hc, readField, ht4 i a hk has]; rfl
        | _ => exact hsk.elim
      · intro hkd
        have hnd : ∀ d, l ≠ .dense d := by
          rintro d rfl
          cases kind with
          | dense => exact hkd rfl
          | _ => exact hsk.elim
        refine kernelLevel_congr hnd ?_ ?_ (b2 i l hl hnd)
        · rintro ⟨pos, crd, rfl⟩
          have : kind = .sparse := by
            cases kind with
            | sparse => rfl
            | _ => exact hsk.elim
          exact (hidx i 0 ((hm.2 i kind hk).1 this)).symm
        · exact (hidx i 1 ((hm.2 i kind hk).2 hkd)).symm)
  refine ⟨e, s', p, ?_, u2, u3, u4, u6, b4, u7⟩
  have hw : k.writes = epilogue k.tn [k.result] k.found := by rw [Kernel.writes, ha]; rfl
  rw [call, hss, Option.bind_some, he, Option.bind_some, hw, w1, Option.bind_some, u1]
  rfl

/-- C79 (calls). A call of a kernel that does not allocate: its variables have the contents of the storages of all
tensors, the result included, and afterwards the result has the same index as before, and its values are where they
were. -/
theorem compute_call_partial (k : Kernel) (hg : GoodNames k) (ha : k.allocates = false) (csize : Nat)
    (storages : Nat → Storage) (hu : GoodUses k storages) (structs : Nat → Struct) (h : Heap)
    (levels : Nat → List LevelData)
    (hin : ∀ t ∈ k.result :: k.inputs, Operand h (storages t) (structs t) (levels t)) (hfit : Fits 1 (levels k.result))
    (body : Env → Heap → Env × Heap)
    (hkeep : ∀ e, ∀ as ∈ (storages k.result).index, ∀ a ∈ as, (body e h).2 a.ptr = h a.ptr) :
    ∃ (e : Env) (v : PropKey → Option Val) (s : Storage),
      (∀ p, Use.prop p ∈ k.uses → p.tensor ∈ k.result :: k.inputs → varValue k.found e p = v p) ∧
      (∀ t ∈ k.result :: k.inputs, v ⟨t, .values, 0, 0⟩ = some (.ptr (some (storages t).vals.ptr)) ∧
        ∀ (i m : Nat) l, (storages t).ordering[i]? = some m → (levels t)[i]? = some l → KernelLevel h v t m i l) ∧
      call k csize storages structs h body = some (s, positions 1 (levels k.result), (body e h).2) ∧
      HostHolds (body e h).2 s (levels k.result) ∧
      s.vals = ⟨(storages k.result).vals.ptr, positions 1 (levels k.result), csize⟩ := by
  have hpn : (k.result :: k.inputs).Nodup := by
    have : ∀ l : List Nat, (l.map k.tn).Nodup → l.Nodup := by
      intro l
      induction l with
      | nil => intro _; exact List.nodup_nil
      | cons x xs ih =>
        intro h
        rw [List.map_cons, List.nodup_cons] at h
        exact List.nodup_cons.2 ⟨fun hx => h.1 (List.mem_map.2 ⟨x, hx, rfl⟩), ih h.2⟩
    exact this _ hg.tensors
  obtain ⟨ss, hss, hss2, _⟩ := packAll_spec storages (k.result :: k.inputs) structs hpn (by
    intro t ht
    obtain ⟨t', h1, _⟩ := packed_operand _ _ _ _ (hin t ht) 0
    exact ⟨t', h1⟩)
  have hpo : ∀ t ∈ k.result :: k.inputs, Shaped (storages t) (ss t) ∧ (ss t).vals = some (storages t).vals.ptr ∧
      ∀ (i m : Nat) l, (storages t).ordering[i]? = some m → (levels t)[i]? = some l →
        KernelLevel h (fun p => readField (ss t) p.field p.mode p.index) t m i l := by
    intro t ht
    obtain ⟨t', h1, h2, h3, h4⟩ := packed_operand _ _ _ _ (hin t ht) t
    have := hss2 t ht
    rw [h1] at this
    rw [← Option.some.inj this]
    exact ⟨h2, h3, h4⟩
  obtain ⟨e, he, het, hev, _⟩ := prologue_partial k hg storages hu ss (fun t ht => (hpo t ht).1)
  have hr : k.result ∈ k.result :: k.inputs := List.mem_cons_self
  have ho := hin k.result hr
  have htarget : Target (storages k.result) (structs k.result) := by
    have hall : ∀ (i : Nat) kind as, (storages k.result).kinds[i]? = some kind → (storages k.result).index[i]? = some as →
        ∃ l, HostLevel h kind as l := by
      intro i kind as hk has
      have hl := List.getElem?_eq_getElem (l := levels k.result) (i := i) (by
        rw [ho.holds.2.1]; exact (List.getElem?_eq_some_iff.1 hk).1)
      exact ⟨_, ho.holds.2.2 i kind as _ hk has hl⟩
    refine ⟨ho.shaped, ho.holds.1, ?_, ?_⟩
    · intro i as hk has
      obtain ⟨l, hl⟩ := hall i _ as hk has
      rw [HostLevel.eq_def] at hl
      split at hl
      · exact ⟨_, rfl⟩
      · rename_i heq; cases heq
      · rename_i heq; cases heq
      · exact hl.elim
    · intro i kind as hk hd has
      obtain ⟨l, hl⟩ := hall i _ as hk has
      rw [HostLevel.eq_def] at hl
      split at hl
      · exact absurd rfl hd
      · exact Or.inr ⟨_, _, rfl⟩
      · exact Or.inr ⟨_, _, rfl⟩
      · exact hl.elim
  obtain ⟨tr, ht1, _, _, ht4, ht5⟩ := packed_target _ _ htarget
  have htr : tr = ss k.result := by
    have := hss2 k.result hr
    rw [ht1] at this
    exact Option.some.inj this
  subst htr
  obtain ⟨s', u1, u2, _, _, _, _, u7⟩ := unpacked_result csize (body e h).2 (ss k.result) (storages k.result)
    (levels k.result) _ ho.holds.2.1 (by
      have := congrArg List.length (hpo k.result hr).1.2
      simpa using this) hfit (hpo k.result hr).2.1 (by
      intro i kind l hk hl
      obtain ⟨as, has⟩ : ∃ as, (storages k.result).index[i]? = some as :=
        ⟨_, List.getElem?_eq_getElem (by rw [ho.holds.1]; exact (List.getElem?_eq_some_iff.1 hk).1)⟩
      have hh := ho.holds.2.2 i kind as l hk has hl
      have hb := ho.int32 as (List.mem_of_getElem? has)
      have hkp : ∀ a ∈ as, ∀ xs, Holds a.bytes h a.ptr xs → Holds 4 (body e h).2 a.ptr xs := by
        intro a hma xs hx j x hj
        have := hx j x hj
        rw [hb a hma] at this
        rw [readAt, hkeep e as (List.mem_of_getElem? has) a hma]
        exact this
      rw [HostLevel.eq_def] at hh
      split at hh
      · rename_i a n
        refine ⟨trivial, ?_, fun hc => absurd rfl hc⟩
        rintro d hd
        cases hd
        exact ⟨a.ptr, by rw [readField, ht4 i a hk has]; rfl, hkp a (by simp) _ hh.2⟩
      · rename_i a b pos crd
        refine ⟨trivial, (fun d hd => nomatch hd), fun _ => ?_⟩
        obtain ⟨sl, s1, s2, s3⟩ := ht5 i _ a b hk (by decide) has
        exact ⟨a.ptr, b.ptr, by simp [readField, s1, s3], hkp a (by simp) _ hh.2.2.1, by simp [readField, s1, s2],
          hkp b (by simp) _ hh.2.2.2⟩
      · rename_i a b crd
        refine ⟨trivial, (fun d hd => nomatch hd), fun _ => ?_⟩
        obtain ⟨sl, s1, s2, s3⟩ := ht5 i _ a b hk (by decide) has
        exact ⟨b.ptr, by simp [readField, s1, s2], hkp b (by simp) _ hh.2⟩
      · exact hh.elim)
  refine ⟨e, readKey ss, s', fun p hp ht => (hev p hp ht).1, ?_, ?_, u2, u7⟩
  · intro t ht
    refine ⟨by rw [readKey, readField, (hpo t ht).2.1], ?_⟩
    intro i m l hm hl
    have := (hpo t ht).2.2 i m l hm hl
    cases l with
    | dense n => exact this
    | compressed pos crd => exact this
    | singleton crd => exact this
  · have hw : k.writes = [] := by rw [Kernel.writes, ha]; rfl
    rw [call, hss, Option.bind_some, he, Option.bind_some, hw, runWrites, Option.bind_some, u1]
    rfl

/-! ### A kernel that meets the hypotheses -/

/-- `A(i,j) = B(i,j)`, both with a dense and a compressed level. -/
def copyKernel : Kernel :=
  ⟨["int".toList, "for".toList], fun t => if t = 0 then "A".toList else "B".toList, 0, [1],
    [.prop ⟨0, .dimension, 0, 0⟩, .prop ⟨0, .indices, 1, 0⟩, .prop ⟨0, .indices, 1, 1⟩, .var 0 "i".toList false,
      .prop ⟨1, .dimension, 0, 0⟩, .prop ⟨1, .indices, 1, 0⟩, .var 1 "jB".toList false, .var 2 "i".toList false,
      .prop ⟨1, .indices, 1, 1⟩, .prop ⟨0, .values, 0, 0⟩, .prop ⟨1, .values, 0, 0⟩, .prop ⟨1, .indices, 1, 0⟩], true⟩

/-- Memory: the sizes of the dense levels, and the arrays of `B`. -/
def copyHeap : Heap := fun p =>
  if p = 0 ∨ p = 1 then [2, 0, 0, 0] else if p = 2 then [0, 0, 0, 0, 1, 0, 0, 0, 2, 0, 0, 0]
  else if p = 3 then [4, 0, 0, 0, 3, 0, 0, 0] else []

def copyStorage (t : Nat) : Storage :=
  if t = 0 then ⟨[.dense, .sparse], [0, 1], [2, 5], [[⟨0, 1, 4⟩], []], ⟨9, 0, 8⟩, 8⟩
  else ⟨[.dense, .sparse], [0, 1], [2, 5], [[⟨1, 1, 4⟩], [⟨2, 3, 4⟩, ⟨3, 2, 4⟩]], ⟨4, 2, 8⟩, 8⟩

example : GoodNames copyKernel := by
  refine ⟨by decide, ?_, by decide, by decide +kernel⟩
  intro id n b h
  simp only [copyKernel, List.mem_cons, reduceCtorEq, Use.var.injEq, List.not_mem_nil, or_false, false_or] at h
  rcases h with ⟨rfl, rfl, rfl⟩ | ⟨rfl, rfl, rfl⟩ | ⟨rfl, rfl, rfl⟩ <;> exact ⟨rfl, by decide⟩

example : copyKernel.found.map.map (·.2) = ["A1_dimension", "A2_pos", "A2_crd", "i", "B1_dimension", "B2_pos", "jB", "i0",
    "B2_crd", "A_vals", "B_vals"].map String.toList := by decide +kernel

/-- The body makes `A` share the arrays of `B`. -/
def copyBody : Env → Heap → Env × Heap := fun e h =>
  (fun n => if n = "A2_pos".toList then e "B2_pos".toList else if n = "A2_crd".toList then e "B2_crd".toList
    else if n = "A_vals".toList then e "B_vals".toList else e n, h)

example : (call copyKernel 8 copyStorage (fun t => initStruct (copyStorage t)) copyHeap copyBody).map (fun r => (r.1, r.2.1)) =
    some (⟨[.dense, .sparse], [0, 1], [2, 5], [[⟨0, 1, 4⟩], [⟨2, 3, 4⟩, ⟨3, 2, 4⟩]], ⟨4, 2, 8⟩, 8⟩, 2) := by decide +kernel

example : Operand copyHeap (copyStorage 1) (initStruct (copyStorage 1)) [.dense 2, .compressed [0, 1, 2] [4, 3]] := by
  refine ⟨⟨rfl, by decide⟩, ⟨rfl, rfl, ?_⟩, ?_, ?_, rfl⟩
  · intro i k a l hk ha hl
    match i with
    | 0 =>
      simp [copyStorage] at hk ha hl
      subst hk; subst ha; subst hl
      refine ⟨rfl, ?_⟩
      intro j x hj
      match j with
      | 0 => simp at hj; subst hj; decide
      | j + 1 => simp at hj
    | 1 =>
      simp [copyStorage] at hk ha hl
      subst hk; subst ha; subst hl
      refine ⟨rfl, rfl, ?_, ?_⟩
      · intro j x hj
        match j with
        | 0 => simp at hj; subst hj; decide
        | 1 => simp at hj; subst hj; decide
        | 2 => simp at hj; subst hj; decide
        | j + 3 => simp at hj
      · intro j x hj
        match j with
        | 0 => simp at hj; subst hj; decide
        | 1 => simp at hj; subst hj; decide
        | j + 2 => simp at hj
    | i + 2 => simp [copyStorage] at hk
  · unfold Int32Index; decide
  · intro i m n hk hl hm
    match i with
    | 0 => simp [copyStorage] at hm hl; subst hm; subst hl; decide
    | 1 => simp [copyStorage] at hk
    | i + 2 => simp [copyStorage] at hk

/-! ### Where it fails -/

/-- C79 (index types). Kernels read every index array as an array of `int`: coordinates that are stored in bytes, as a
format may ask for, are misread. -/
theorem index_type_fails : ∃ (h : Heap) (s : Storage) (crd : List Nat) (t : Struct) (q : Ptr),
    HostHolds h s [.compressed [0, 4] crd] ∧ pack s (initStruct s) = some t ∧
      readField t .indices 0 1 = some (.ptr (some q)) ∧ crd[0]? = some 1 ∧ readInt h q 0 = some 67305985 := by
  refine ⟨fun p => if p = 0 then [0, 0, 0, 0, 4, 0, 0, 0] else [1, 2, 3, 4],
    ⟨[.sparse], [0], [9], [[⟨0, 2, 4⟩, ⟨1, 4, 1⟩]], ⟨2, 4, 8⟩, 3⟩, [1, 2, 3, 4], _, 1, ⟨rfl, rfl, ?_⟩, rfl, rfl, rfl, by decide⟩
  intro i k a l hk ha hl
  match i with
  | 0 =>
    simp at hk ha hl
    subst hk; subst ha; subst hl
    refine ⟨rfl, rfl, ?_, ?_⟩
    · intro j x hj
      match j with
      | 0 => simp at hj; subst hj; decide
      | 1 => simp at hj; subst hj; decide
      | j + 2 => simp at hj
    · intro j x hj
      match j with
      | 0 => simp at hj; subst hj; decide
      | 1 => simp at hj; subst hj; decide
      | 2 => simp at hj; subst hj; decide
      | 3 => simp at hj; subst hj; decide
      | j + 4 => simp at hj
  | i + 1 => simp at hk

/-- C79 (kernel API). A result with a singleton level is never taken back by the kernel API, although tensors do. -/
theorem kernel_singleton_fails (csize : Nat) (h : Heap) (t : Struct) (s : Storage) (hs : Kind.singleton ∈ s.kinds) :
    unpackKernel csize h t s = none := by
  rw [unpackKernel, if_pos hs]

example : (unpack 8 (fun p => if p = 0 then [0, 0, 0, 0, 2, 0, 0, 0] else [1, 0, 0, 0, 1, 0, 0, 0])
    ⟨[4, 4], [[some 0, some 1], [none, some 2]], some 3, none⟩ ⟨[.sparse, .singleton], [0, 1], [4, 4], [[], []], ⟨0, 0, 8⟩, 0⟩).isSome
    = true := by decide

/-- C79 (names). If two tensors have the same name, the generated function does not compile. -/
theorem same_name_fails (k : Kernel) (structs : Nat → Struct) (t : Nat) (ht : t ∈ k.inputs) (hn : k.tn t = k.tn k.result) :
    enter k.tn [k.result] k.inputs k.found structs = none := by
  have key : ∀ (ts : List Nat) (e : Env), t ∈ ts → (e (k.tn t)).isSome = true → declareParams k.tn ts e = none := by
    intro ts
    induction ts with
    | nil => intro e h; cases h
    | cons u us ih =>
      intro e h he
      rw [declareParams, declare]
      by_cases hu : (e (k.tn u)).isSome = true
      · rw [if_pos hu]; rfl
      · rw [if_neg hu, Option.bind_some]
        rcases List.mem_cons.1 h with rfl | h
        · exact absurd he hu
        · apply ih _ h
          rw [bindVar]
          split
          · rfl
          · exact he
  rw [enter, List.singleton_append, declareParams, declare, if_neg (by simp), Option.bind_some, key k.inputs _ ht]
  · rfl
  · rw [bindVar, if_pos hn]; rfl

/-- C79 (names). A tensor that is named like an array of another one: the generated function does not compile. -/
theorem tensor_name_fails : ∃ k : Kernel, ((k.result :: k.inputs).map k.tn).Nodup ∧ PlainVars k.uses ∧
    ∀ structs, enter k.tn [k.result] k.inputs k.found structs = none := by
  refine ⟨⟨[], fun t => if t = 0 then "B1_pos".toList else "B".toList, 0, [1], [.prop ⟨1, .indices, 0, 0⟩], true⟩, by decide,
    ?_, ?_⟩
  · intro id n b h
    simp at h
  · intro structs
    have hp : prologue (fun t => if t = 0 then "B1_pos".toList else "B".toList) [0] [1]
        (Kernel.found ⟨[], fun t => if t = 0 then "B1_pos".toList else "B".toList, 0, [1], [.prop ⟨1, .indices, 0, 0⟩], true⟩) =
        [("B1_pos".toList, ⟨"B".toList, .indices, 0, 0⟩)] := by decide +kernel
    rw [enter, hp]
    have hd : declareParams (fun t => if t = 0 then "B1_pos".toList else "B".toList) ([0] ++ [1]) (fun _ => none) =
        some (bindVar (bindVar (fun _ => none) "B1_pos".toList (.struct 0)) "B".toList (.struct 1)) := by rfl
    rw [hd, Option.bind_some, runDecls, runDecl]
    have hs : structAt (bindVar (bindVar (fun _ => none) "B1_pos".toList (.struct 0)) "B".toList (.struct 1)) "B".toList =
        some 1 := by rfl
    simp only
    rw [hs, Option.bind_some]
    cases readField (structs 1) .indices 0 0 with
    | none => rfl
    | some v => rfl

/-- C79 (names). Pointer variables, which are the arrays of workspaces, keep their names: two workspaces with the same
name are one variable in the generated code, and so are a workspace and an array of a tensor. -/
theorem pointer_name_fails : ∃ (k : Kernel), (k.found.name (.var 0)).isSome = true ∧
    k.found.name (.var 0) = k.found.name (.var 1) ∧ k.found.name (.var 0) = k.found.name (.prop ⟨1, .values, 0, 0⟩) :=
  ⟨⟨[], fun t => if t = 0 then "A".toList else "B".toList, 0, [1], [.var 0 "B_vals".toList true, .var 1 "B_vals".toList true,
    .prop ⟨1, .values, 0, 0⟩], true⟩, by decide⟩

end Verif.Abi
