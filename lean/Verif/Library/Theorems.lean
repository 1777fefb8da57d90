import Verif.Library.Lemmas
/-! C95: what a call of compiled code runs. -/
namespace Verif.Library

/-! ### Helper facts -/

theorem shim_inj {a b : Name} (h : shimName a = shimName b) : a = b := List.append_cancel_left h

theorem fits_shims {fs : List Def} (hf : Fits fs) (hn : ∀ f ∈ fs, ∀ g ∈ fs, f.name ≠ shimName g.name) : Fits (fs ++ fs.map shimOf) := by
  have e : (fs.map shimOf).map Def.name = (fs.map Def.name).map shimName := by rw [List.map_map, List.map_map]; rfl
  refine ⟨?_, fun d hd n hnn => ?_⟩
  · rw [List.map_append, e, List.nodup_append]
    refine ⟨hf.once, ?_, ?_⟩
    · rw [List.Nodup, List.pairwise_map]
      exact List.Pairwise.imp (fun hab h => hab (shim_inj h)) hf.once
    · intro a ha b hb hab
      obtain ⟨f, hf', rfl⟩ := List.mem_map.mp ha
      obtain ⟨c, hc, rfl⟩ := List.mem_map.mp hb
      obtain ⟨g, hg, rfl⟩ := List.mem_map.mp hc
      exact hn f hf' g hg hab
  · rw [List.map_append, List.mem_append]
    left
    rcases List.mem_append.mp hd with hd | hd
    · exact hf.closed d hd n hnn
    · obtain ⟨f, hf', rfl⟩ := List.mem_map.mp hd
      rw [List.mem_singleton.mp hnn]
      exact List.mem_map.mpr ⟨f, hf', rfl⟩

theorem run_call {l : List Def} {f : Def} {c : Nat} (hf : Fits l) (h1 : f ∈ l) (h2 : shimOf f ∈ l) (hc : f.code = .own c) : callIn (some l) f.name = .code c := by
  have e1 : find l (shimName f.name) = some (shimOf f) := find_once hf.once h2
  have e2 := find_once hf.once h1
  unfold callIn
  simp only [e1]
  show (match find l f.name with | some ⟨_, _, .own k⟩ => _ | _ => _) = _
  rw [e2]
  obtain ⟨_, _, _⟩ := f
  cases hc
  rfl

/-- The module after a history. -/
theorem at_history {paths : Nat → Nat} (hinj : ∀ i j, paths i = paths j → i = j) {h k : List Op} {m : Nat} (hm : Made 0 (h ++ .compile m :: k)) :
    ∃ x, Good paths h (run paths .start h) ∧ (run paths .start h).mods[m]? = some x ∧ Local h m x ∧ m < made h ∧ Made (made h) [.compile m] ∧ Made (made h) k := by
  obtain ⟨h1, h2⟩ := made_split hm
  rw [Nat.zero_add] at h2
  have hg := good_run hinj (h := []) (k := h) (good_start paths) h1
  rw [List.nil_append] at hg
  have hlt : m < (run paths .start h).mods.length := by rw [hg.len]; exact h2.1
  exact ⟨_, hg, List.getElem?_eq_getElem hlt, hg.loc m _ (List.getElem?_eq_getElem hlt), h2.1, ⟨h2.1, trivial⟩, h2.2⟩

/-- Calls after a module has been compiled. -/
theorem compiled_calls {paths : Nat → Nat} (hinj : ∀ i j, paths i = paths j → i = j) {h k : List Op} {m : Nat} {x : Mod} (hg : Good paths h (run paths .start h))
    (hx : (run paths .start h).mods[m]? = some x) (hlt : m < made h) (h1 : Made (made h) [.compile m]) (h2 : Made (made h) k) (hk : .compile m ∉ k) (hf : Fits (text x)) (n : Name) :
    call (run paths .start (h ++ .compile m :: k)) m n = callIn (some (text x)) n := by
  have hc := (compile_ok hg hx hf).2
  rw [call_eq, run_append]
  show callIn (libOf (run paths (step paths (run paths .start h) (.compile m)).1 k) m) n = _
  rw [lib_run hinj (good_step hinj hg h1) (by rw [made_append]; exact h2) (by rw [made_append]; omega) hk, hc]

theorem text_generated {h : List Op} {m : Nat} {x : Mod} (hl : Local h m x) (hs : sources m h = []) : text x = added m h ++ (added m h).map shimOf := by
  have hu : x.user = false := by
    cases hu : x.user with
    | false => rfl
    | true => exact absurd hs (hl.2.1.mp hu)
  unfold text generate
  rw [hu]
  show x.funcs ++ x.funcs.map shimOf = _
  rw [hl.1]

theorem text_given {h : List Op} {m : Nat} {x : Mod} (hl : Local h m x) (hs : sources m h ≠ []) : ∃ g, text x = g ++ (sources m h).flatten ++ (added m h).map shimOf ∧ (added m h = [] → g = []) := by
  have hu := hl.2.1.mpr hs
  obtain ⟨g, hg, hz⟩ := hl.2.2
  refine ⟨g, ?_, hz⟩
  unfold text generate
  rw [hu]
  show x.source ++ x.funcs.map shimOf = _
  rw [hl.1, hg]

/-- After a text that is rejected. -/
theorem rejected {paths : Nat → Nat} {h : List Op} {m : Nat} {x : Mod} (hg : Good paths h (run paths .start h)) (hx : (run paths .start h).mods[m]? = some x)
    (hn : ¬ ((text x).map Def.name).Nodup) :
    (step paths (run paths .start h) (.compile m)).2 = .failed ∧ ∀ j n, call (run paths .start (h ++ [.compile m])) j n = call (run paths .start h) j n := by
  obtain ⟨h1, h2⟩ := compile_twice hg hx hn
  refine ⟨h1, fun j n => ?_⟩
  rw [call_eq, call_eq, run_append]
  exact congrArg (callIn · n) (h2 j)

theorem twice_not_nodup {a b : List Def} {n : Name} (h1 : n ∈ a.map Def.name) (h2 : n ∈ b.map Def.name) : ¬ ((a ++ b).map Def.name).Nodup := by
  rw [List.map_append, List.nodup_append]
  rintro ⟨_, _, h⟩
  exact h n h1 n h2 rfl

theorem made_glue : ∀ {n : Nat} {h k : List Op}, Made n h → Made (n + made h) k → Made n (h ++ k)
  | _, [], _, _, h2 => h2
  | n, .new :: h, k, h1, h2 => made_glue (n := n + 1) (h := h) h1 (by rw [show n + 1 + made h = n + (made h + 1) by omega]; exact h2)
  | _, .add .. :: h, _, h1, h2 => ⟨h1.1, made_glue (h := h) h1.2 h2⟩
  | _, .source .. :: h, _, h1, h2 => ⟨h1.1, made_glue (h := h) h1.2 h2⟩
  | _, .compile _ :: h, _, h1, h2 => ⟨h1.1, made_glue (h := h) h1.2 h2⟩

/-! ### Properties -/

/-- A module without texts of the user: after it is compiled, a call of a function runs the code that was added under that name before, whatever
is done later, until the module is compiled again. Modules must have different names. -/
theorem calls_run_compiled_partial (paths : Nat → Nat) (hinj : ∀ i j, paths i = paths j → i = j) (h k : List Op) (m : Nat) (f : Def) (c : Nat)
    (hm : Made 0 (h ++ .compile m :: k)) (hs : sources m h = []) (hfit : Fits (added m h)) (hn : ∀ f ∈ added m h, ∀ g ∈ added m h, f.name ≠ shimName g.name)
    (hf : f ∈ added m h) (hc : f.code = .own c) (hk : .compile m ∉ k) :
    (step paths (run paths .start h) (.compile m)).2 = .done ∧ call (run paths .start (h ++ .compile m :: k)) m f.name = .code c := by
  obtain ⟨x, hg, hx, hl, hlt, h1, h2⟩ := at_history hinj hm
  have ht := text_generated hl hs
  have hfit' : Fits (text x) := by rw [ht]; exact fits_shims hfit hn
  refine ⟨(compile_ok hg hx hfit').1, ?_⟩
  rw [compiled_calls hinj hg hx hlt h1 h2 hk hfit']
  refine run_call hfit' ?_ ?_ hc
  · rw [ht]; exact List.mem_append_left _ hf
  · rw [ht]; exact List.mem_append_right _ (List.mem_map.mpr ⟨f, hf, rfl⟩)

/-- A module with one text of the user and no functions: after it is compiled, a call runs the function of the text, if the text has a function
that unpacks arguments for it. -/
theorem calls_run_text_partial (paths : Nat → Nat) (hinj : ∀ i j, paths i = paths j → i = j) (h k : List Op) (m : Nat) (t : List Def) (f : Def) (c : Nat)
    (hm : Made 0 (h ++ .compile m :: k)) (hs : sources m h = [t]) (ha : added m h = []) (hfit : Fits t)
    (hf : f ∈ t) (hsh : ⟨shimName f.name, [f.name], .forward f.name⟩ ∈ t) (hc : f.code = .own c) (hk : .compile m ∉ k) :
    (step paths (run paths .start h) (.compile m)).2 = .done ∧ call (run paths .start (h ++ .compile m :: k)) m f.name = .code c := by
  obtain ⟨x, hg, hx, hl, hlt, h1, h2⟩ := at_history hinj hm
  obtain ⟨g, ht, hz⟩ := text_given hl (by rw [hs]; exact fun h => nomatch h)
  rw [hz ha, hs, ha] at ht
  have ht' : text x = t := by rw [ht]; simp
  have hfit' : Fits (text x) := by rw [ht']; exact hfit
  refine ⟨(compile_ok hg hx hfit').1, ?_⟩
  rw [compiled_calls hinj hg hx hlt h1 h2 hk hfit', ht']
  exact run_call hfit hf hsh hc

/-- What is done with other modules, and what is added to a module but not compiled, changes no call of its functions. -/
theorem calls_until_compile (paths : Nat → Nat) (hinj : ∀ i j, paths i = paths j → i = j) (h k : List Op) (m : Nat) (n : Name) (hm : Made 0 (h ++ k)) (hlt : m < made h)
    (hk : .compile m ∉ k) : call (run paths .start (h ++ k)) m n = call (run paths .start h) m n := by
  obtain ⟨h1, h2⟩ := made_split hm
  rw [Nat.zero_add] at h2
  have hg := good_run hinj (h := []) (k := h) (good_start paths) h1
  rw [List.nil_append] at hg
  rw [call_eq, call_eq, run_append, lib_run hinj hg h2 hlt hk]

/-- A module that got two functions of the same name: its compilation fails, and every call runs what it ran before. -/
theorem same_name_fails (paths : Nat → Nat) (hinj : ∀ i j, paths i = paths j → i = j) (h : List Op) (m : Nat) (hm : Made 0 (h ++ [.compile m])) (hs : sources m h = [])
    (hn : ¬ ((added m h).map Def.name).Nodup) :
    (step paths (run paths .start h) (.compile m)).2 = .failed ∧ ∀ j n, call (run paths .start (h ++ [.compile m])) j n = call (run paths .start h) j n := by
  obtain ⟨x, hg, hx, hl, _⟩ := at_history hinj hm
  refine rejected hg hx ?_
  rw [text_generated hl hs, List.map_append, List.nodup_append]
  exact fun h => hn h.1

/-- A function that was added and a text that unpacks arguments for a function of that name: the module can never be compiled again. -/
theorem text_after_function_fails (paths : Nat → Nat) (hinj : ∀ i j, paths i = paths j → i = j) (h : List Op) (m : Nat) (hm : Made 0 (h ++ [.compile m]))
    (t : List Def) (ht : t ∈ sources m h) (f : Def) (hf : f ∈ added m h) (hn : shimName f.name ∈ t.map Def.name) :
    (step paths (run paths .start h) (.compile m)).2 = .failed ∧ ∀ j n, call (run paths .start (h ++ [.compile m])) j n = call (run paths .start h) j n := by
  obtain ⟨x, hg, hx, hl, _⟩ := at_history hinj hm
  refine rejected hg hx ?_
  obtain ⟨g, e, _⟩ := text_given hl (fun e => by rw [e] at ht; cases ht)
  rw [e]
  refine twice_not_nodup (n := shimName f.name) ?_ ?_
  · obtain ⟨d, hd, hdn⟩ := List.mem_map.mp hn
    exact List.mem_map.mpr ⟨d, List.mem_append_right _ (List.mem_flatten.mpr ⟨t, ht, hd⟩), hdn⟩
  · exact List.mem_map.mpr ⟨shimOf f, List.mem_map.mpr ⟨f, hf, rfl⟩, rfl⟩

/-- Two texts with functions of the same name: texts are appended, and the module can never be compiled again. -/
theorem second_text_fails (paths : Nat → Nat) (hinj : ∀ i j, paths i = paths j → i = j) (h : List Op) (m : Nat) (hm : Made 0 (h ++ [.compile m]))
    (a b c : List (List Def)) (t u : List Def) (hs : sources m h = a ++ t :: b ++ u :: c) (n : Name) (ht : n ∈ t.map Def.name) (hu : n ∈ u.map Def.name) :
    (step paths (run paths .start h) (.compile m)).2 = .failed ∧ ∀ j n, call (run paths .start (h ++ [.compile m])) j n = call (run paths .start h) j n := by
  obtain ⟨x, hg, hx, hl, _⟩ := at_history hinj hm
  refine rejected hg hx ?_
  obtain ⟨g, e, _⟩ := text_given hl (by rw [hs]; simp)
  rw [e, hs]
  obtain ⟨d, hd, hdn⟩ := List.mem_map.mp ht
  obtain ⟨d', hd', hdn'⟩ := List.mem_map.mp hu
  rw [List.flatten_append, ← List.append_assoc, List.append_assoc]
  refine twice_not_nodup (n := n) (List.mem_map.mpr ⟨d, ?_, hdn⟩) (List.mem_map.mpr ⟨d', ?_, hdn'⟩)
  · exact List.mem_append_right _ (List.mem_flatten.mpr ⟨t, by simp, hd⟩)
  · exact List.mem_append_left _ (List.mem_flatten.mpr ⟨u, by simp, hd'⟩)

/-- A module whose text calls a function that is not there: it cannot be loaded, and the module has no code at all, not even what was compiled
before. -/
theorem unresolved_fails (paths : Nat → Nat) (hinj : ∀ i j, paths i = paths j → i = j) (h : List Op) (m : Nat) (hm : Made 0 (h ++ [.compile m])) (t : List Def)
    (hs : sources m h = [t]) (ha : added m h = []) (hon : (t.map Def.name).Nodup) (d : Def) (hd : d ∈ t) (n : Name) (hn : n ∈ d.calls) (hno : n ∉ t.map Def.name) :
    (step paths (run paths .start h) (.compile m)).2 = .failed ∧ ∀ n', call (run paths .start (h ++ [.compile m])) m n' = .undefined := by
  obtain ⟨x, hg, hx, hl, _⟩ := at_history hinj hm
  obtain ⟨g, ht, hz⟩ := text_given hl (by rw [hs]; exact fun h => nomatch h)
  rw [hz ha, hs, ha] at ht
  have ht' : text x = t := by rw [ht]; simp
  have hcl : closed (text x) = false := by
    rw [ht']
    cases hc : closed t with
    | false => rfl
    | true =>
      unfold closed at hc
      have := List.all_eq_true.mp (List.all_eq_true.mp hc d hd) n hn
      exact absurd (List.contains_iff_mem.mp this) hno
  have hlen : m < (run paths .start h).mods.length := by
    rcases Nat.lt_or_ge m (run paths .start h).mods.length with hlt | hge
    · exact hlt
    · rw [List.getElem?_eq_none hge] at hx; cases hx
  have e : step paths (run paths .start h) (.compile m) = compileMod (run paths .start h) m x := by unfold step; simp only [hx]
  rcases compile_spec hg.inv hx with ⟨h1, _⟩ | ⟨_, h2, h3, _⟩
  · rw [ht'] at h1; exact absurd (decide_eq_true hon) (by unfold once at h1; rw [h1]; exact fun h => nomatch h)
  · refine ⟨by rw [e, h2, hcl]; rfl, fun n' => ?_⟩
    rw [call_eq, run_append]
    show callIn (libOf (step paths (run paths .start h) (.compile m)).1 m) n' = _
    have : libOf (step paths (run paths .start h) (.compile m)).1 m = none := by
      rw [e]
      unfold libOf
      rw [h3, List.getElem?_set_self hlen, hcl]
      rfl
    rw [this]; rfl

/-! ### Kernels given as text to tensors -/

/-- The names of the functions for which `compileSource` adds functions that unpack arguments. -/
def names : List Name := ["assemble".toList, "compute".toList]

/-- A tensor that was compiled, or got a text before, rejects every text: `compileSource` fails, and all calls run what they ran before. -/
theorem compileSource_again_fails (paths : Nat → Nat) (hinj : ∀ i j, paths i = paths j → i = j) (h : List Op) (m : Nat) (hm : Made 0 h) (hlt : m < made h)
    (hused : (∃ f ∈ added m h, f.name ∈ names) ∨ (∃ t ∈ sources m h, ∃ n ∈ names, shimName n ∈ t.map Def.name)) (t : List Def) :
    ∃ o, compileSource m t = [o, .compile m] ∧ (step paths (run paths .start (h ++ [o])) (.compile m)).2 = .failed
      ∧ ∀ j < made h, ∀ n, call (run paths .start (h ++ compileSource m t)) j n = call (run paths .start h) j n := by
  refine ⟨_, rfl, ?_⟩
  generalize hu : t ++ [shimOf ⟨"assemble".toList, [], .own 0⟩, shimOf ⟨"compute".toList, [], .own 0⟩] = u
  have hsh : ∀ n ∈ names, shimName n ∈ u.map Def.name := by
    intro n hn
    rw [← hu, List.map_append, List.mem_append]
    right
    unfold names at hn
    rcases List.mem_cons.mp hn with rfl | hn
    · exact List.mem_cons_self
    · rw [List.mem_singleton.mp hn]; exact List.mem_cons_of_mem _ List.mem_cons_self
  have hmk : ∀ k, Made (0 + made h) k → Made 0 (h ++ k) := fun k hk => made_glue hm hk
  have hm2 : Made 0 ((h ++ [.source m u]) ++ [.compile m]) := by
    rw [List.append_assoc]
    exact hmk _ ⟨by omega, by omega, trivial⟩
  have hm1 : Made 0 (h ++ [.source m u]) := hmk _ ⟨by omega, trivial⟩
  have hsu : sources m (h ++ [.source m u]) = sources m h ++ [u] := by rw [sources_append]; simp [sources]
  have key : (step paths (run paths .start (h ++ [.source m u])) (.compile m)).2 = .failed
      ∧ ∀ j n, call (run paths .start ((h ++ [.source m u]) ++ [.compile m])) j n = call (run paths .start (h ++ [.source m u])) j n := by
    rcases hused with ⟨f, hf, hfn⟩ | ⟨t', ht', n, hn, hnt⟩
    · exact text_after_function_fails paths hinj _ m hm2 u (by rw [hsu]; simp) f (by rw [added_append]; exact List.mem_append_left _ hf) (hsh _ hfn)
    · obtain ⟨a, b, e⟩ := List.append_of_mem ht'
      exact second_text_fails paths hinj _ m hm2 a b [] t' u (by rw [hsu, e]) (shimName n) hnt (hsh n hn)
  refine ⟨key.1, fun j hj n => ?_⟩
  have e : h ++ compileSource m t = (h ++ [.source m u]) ++ [.compile m] := by
    unfold compileSource; rw [hu, List.append_assoc]; rfl
  rw [e, key.2 j n]
  refine calls_until_compile paths hinj h [.source m u] j n hm1 hj ?_
  intro hx
  cases List.mem_singleton.mp hx

/-- The text of a kernel made by the command line with a prefix, taco.cpp 1187-1202. -/
def kernelText (p : Name) (kc ka ke : Nat) : List Def :=
  [⟨p ++ "compute".toList, [], .own kc⟩, ⟨p ++ "assemble".toList, [], .own ka⟩, ⟨p ++ "evaluate".toList, [], .own ke⟩]

/-- A new module that gets a text. -/
theorem fresh_text {paths : Nat → Nat} (hinj : ∀ i j, paths i = paths j → i = j) {h : List Op} (hm : Made 0 h) (u : List Def) :
    Made 0 ((h ++ [.new, .source (made h) u]) ++ [.compile (made h)]) ∧ sources (made h) (h ++ [.new, .source (made h) u]) = [u] ∧ added (made h) (h ++ [.new, .source (made h) u]) = []
    ∧ ∀ n, call (run paths .start (h ++ [.new, .source (made h) u])) (made h) n = .undefined := by
  have hg := good_run hinj (h := []) (k := h) (good_start paths) hm
  rw [List.nil_append] at hg
  obtain ⟨f1, f2⟩ := hg.fresh (made h) (Nat.le_refl _)
  refine ⟨?_, ?_, ?_, fun n => ?_⟩
  · rw [List.append_assoc]
    refine made_glue hm ?_
    rw [Nat.zero_add]
    exact ⟨Nat.lt_succ_self _, Nat.lt_succ_self _, trivial⟩
  · rw [sources_append, f2]; simp [sources]
  · rw [added_append, f1]; simp [added]
  · have e : h ++ [.new, .source (made h) u] = (h ++ [.new]) ++ [.source (made h) u] := by rw [List.append_assoc]; rfl
    rw [e, calls_until_compile paths hinj]
    · rw [call_eq, run_append]
      show callIn (libOf (step paths (run paths .start h) .new).1 (made h)) n = _
      unfold libOf
      show callIn (match ((run paths .start h).mods ++ [_])[made h]? with | some m => _ | none => _) n = _
      rw [← hg.len, List.getElem?_concat_length]
      rfl
    · rw [List.append_assoc]
      refine made_glue hm ?_
      rw [Nat.zero_add]
      exact ⟨Nat.lt_succ_self _, trivial⟩
    · rw [made_append]; exact Nat.lt_succ_self _
    · intro hx; cases List.mem_singleton.mp hx

/-- What `compileSource` gives the module. -/
def given (t : List Def) : List Def := t ++ [shimOf ⟨"assemble".toList, [], .own 0⟩, shimOf ⟨"compute".toList, [], .own 0⟩]

theorem compileSource_eq (m : Nat) (t : List Def) : compileSource m t = [.source m (given t), .compile m] := rfl

theorem new_compileSource (h : List Op) (t : List Def) : h ++ .new :: compileSource (made h) t = (h ++ [.new, .source (made h) (given t)]) ++ [.compile (made h)] := by
  rw [List.append_assoc]; rfl

theorem kernel_fits (kc ka ke : Nat) : Fits (given (kernelText [] kc ka ke)) := by
  constructor
  · have : (["compute".toList, "assemble".toList, "evaluate".toList, shimName "assemble".toList, shimName "compute".toList] : List Name).Nodup := by decide +kernel
    exact this
  · intro d hd n hn
    show n ∈ (["compute".toList, "assemble".toList, "evaluate".toList, shimName "assemble".toList, shimName "compute".toList] : List Name)
    rcases List.mem_cons.mp hd with rfl | hd
    · cases hn
    rcases List.mem_cons.mp hd with rfl | hd
    · cases hn
    rcases List.mem_cons.mp hd with rfl | hd
    · cases hn
    rcases List.mem_cons.mp hd with rfl | hd
    · rw [List.mem_singleton.mp hn]; exact List.mem_cons_of_mem _ List.mem_cons_self
    · rw [List.mem_singleton.mp hd] at hn
      rw [List.mem_singleton.mp hn]; exact List.mem_cons_self

/-- Such a text as a new tensor without prefix: its calls run the kernel. -/
theorem kernel_text_runs (paths : Nat → Nat) (hinj : ∀ i j, paths i = paths j → i = j) (h : List Op) (hm : Made 0 h) (kc ka ke : Nat) :
    call (run paths .start (h ++ .new :: compileSource (made h) (kernelText [] kc ka ke))) (made h) "compute".toList = .code kc
    ∧ call (run paths .start (h ++ .new :: compileSource (made h) (kernelText [] kc ka ke))) (made h) "assemble".toList = .code ka := by
  obtain ⟨h1, h2, h3, _⟩ := fresh_text (paths := paths) hinj hm (given (kernelText [] kc ka ke))
  rw [new_compileSource]
  constructor
  · exact (calls_run_text_partial paths hinj _ [] (made h) _ ⟨"compute".toList, [], .own kc⟩ kc h1 h2 h3 (kernel_fits ..) List.mem_cons_self
      (List.mem_append_right _ (List.mem_cons_of_mem _ List.mem_cons_self)) rfl (fun h => nomatch h)).2
  · exact (calls_run_text_partial paths hinj _ [] (made h) _ ⟨"assemble".toList, [], .own ka⟩ ka h1 h2 h3 (kernel_fits ..) (List.mem_cons_of_mem _ List.mem_cons_self)
      (List.mem_append_right _ List.mem_cons_self) rfl (fun h => nomatch h)).2

theorem prefix_missing {p : Name} (hp : p ≠ []) (kc ka ke : Nat) : "compute".toList ∉ (given (kernelText p kc ka ke)).map Def.name := by
  have hl : 0 < p.length := List.length_pos_iff.mpr hp
  intro hx
  replace hx : "compute".toList ∈ [p ++ "compute".toList, p ++ "assemble".toList, p ++ "evaluate".toList, shimName "assemble".toList, shimName "compute".toList] := hx
  have e7 : ("compute".toList : Name).length = 7 := by decide +kernel
  have e8 : ("assemble".toList : Name).length = 8 := by decide +kernel
  have e9 : ("evaluate".toList : Name).length = 8 := by decide +kernel
  have ea : (shimName "assemble".toList).length = 14 := by decide +kernel
  have ec : (shimName "compute".toList).length = 13 := by decide +kernel
  rcases List.mem_cons.mp hx with hx | hx
  · have := congrArg List.length hx; rw [List.length_append] at this; omega
  rcases List.mem_cons.mp hx with hx | hx
  · have := congrArg List.length hx; rw [List.length_append] at this; omega
  rcases List.mem_cons.mp hx with hx | hx
  · have := congrArg List.length hx; rw [List.length_append] at this; omega
  rcases List.mem_cons.mp hx with hx | hx
  · have := congrArg List.length hx; omega
  · have := congrArg List.length (List.mem_singleton.mp hx); omega

/-- With a prefix it cannot be loaded: the functions that unpack arguments call functions without prefix. -/
theorem kernel_prefix_fails (paths : Nat → Nat) (hinj : ∀ i j, paths i = paths j → i = j) (h : List Op) (hm : Made 0 h) (p : Name) (hp : p ≠ []) (kc ka ke : Nat) :
    ∃ o, compileSource (made h) (kernelText p kc ka ke) = [o, .compile (made h)]
      ∧ (step paths (run paths .start (h ++ [.new, o])) (.compile (made h))).2 = .failed
      ∧ ∀ n, call (run paths .start (h ++ .new :: compileSource (made h) (kernelText p kc ka ke))) (made h) n = .undefined := by
  obtain ⟨h1, h2, h3, h4⟩ := fresh_text (paths := paths) hinj hm (given (kernelText p kc ka ke))
  refine ⟨_, rfl, ?_⟩
  rw [new_compileSource]
  by_cases hn : ((given (kernelText p kc ka ke)).map Def.name).Nodup
  · exact unresolved_fails paths hinj _ (made h) h1 _ h2 h3 hn (shimOf ⟨"compute".toList, [], .own 0⟩) (List.mem_append_right _ (List.mem_cons_of_mem _ List.mem_cons_self))
      "compute".toList List.mem_cons_self (prefix_missing hp _ _ _)
  · obtain ⟨x, hg, hx, hl, _⟩ := at_history hinj h1
    obtain ⟨g, ht, hz⟩ := text_given hl (by rw [h2]; exact fun h => nomatch h)
    rw [hz h3, h2, h3] at ht
    have ht' : text x = given (kernelText p kc ka ke) := by rw [ht]; simp
    obtain ⟨r1, r2⟩ := rejected hg hx (by rw [ht']; exact hn)
    exact ⟨r1, fun n => by rw [r2, h4]⟩

/-! ### Witnesses -/

def c1 : Def := ⟨"compute".toList, [], .own 1⟩
def a1 : Def := ⟨"assemble".toList, [], .own 2⟩
def c2 : Def := ⟨"compute".toList, ["assemble".toList], .own 3⟩
def a2 : Def := ⟨"assemble".toList, [], .own 4⟩

/-- Two modules with different names. -/
def two : List Op := [.new, .add 0 a1, .add 0 c1, .compile 0, .new, .add 1 a2, .add 1 c2]

/-- The hypotheses of `calls_run_compiled_partial` are met by two modules with functions of the same names, one of which calls another. -/
example : call (run id .start (two ++ .compile 1 :: [.add 1 c1, .compile 0])) 1 "compute".toList = .code 3 :=
  (calls_run_compiled_partial id (fun _ _ h => h) two [.add 1 c1, .compile 0] 1 c2 3 (by simp [two, Made]) (by decide +kernel)
    ⟨by decide +kernel, by decide +kernel⟩ (by decide +kernel) (by decide +kernel) rfl (by decide +kernel)).2

/-- Of `calls_run_text_partial`: a text with two functions. -/
example : call (run id .start ([.new, .source 0 [c2, a2, shimOf c2]] ++ .compile 0 :: [.new])) 0 "compute".toList = .code 3 :=
  (calls_run_text_partial id (fun _ _ h => h) [.new, .source 0 [c2, a2, shimOf c2]] [.new] 0 _ c2 3 (by simp [Made]) rfl rfl ⟨by decide +kernel, by decide +kernel⟩ (by decide +kernel)
    (by decide +kernel) rfl (by decide +kernel)).2

/-- Of `calls_until_compile`. -/
example : call (run id .start (two ++ [.add 0 a2, .compile 1])) 0 "compute".toList = .code 1 :=
  (calls_until_compile id (fun _ _ h => h) two [.add 0 a2, .compile 1] 0 "compute".toList (by simp [two, Made]) (by decide +kernel) (by decide +kernel)).trans (by decide +kernel)

/-- Of `same_name_fails`: a function is added again, and the compiled one still runs. -/
example : call (run id .start ((two ++ [.add 0 c2]) ++ [.compile 0])) 0 "compute".toList = .code 1 :=
  ((same_name_fails id (fun _ _ h => h) (two ++ [.add 0 c2]) 0 (by simp [two, Made]) (by decide +kernel) (by decide +kernel)).2 0 _).trans (by decide +kernel)

/-- Of `text_after_function_fails` and `second_text_fails`. -/
example : (step id (run id .start (two ++ [.source 0 [c2, shimOf c2]])) (.compile 0)).2 = .failed :=
  (text_after_function_fails id (fun _ _ h => h) (two ++ [.source 0 [c2, shimOf c2]]) 0 (by simp [two, Made]) [c2, shimOf c2] (by decide +kernel) c1 (by decide +kernel) (by decide +kernel)).1
example : (step id (run id .start [.new, .source 0 [c1], .compile 0, .source 0 [c1]]) (.compile 0)).2 = .failed :=
  (second_text_fails id (fun _ _ h => h) [.new, .source 0 [c1], .compile 0, .source 0 [c1]] 0 (by simp [Made]) [] [] [] [c1] [c1] rfl "compute".toList (by decide +kernel) (by decide +kernel)).1

/-- Of `compileSource_again_fails`: a tensor that was compiled. -/
example : call (run id .start (two ++ compileSource 0 [c2, a2])) 0 "compute".toList = .code 1 := by
  obtain ⟨_, _, _, h⟩ := compileSource_again_fails id (fun _ _ h => h) two 0 (by simp [two, Made]) (by decide +kernel) (.inl ⟨c1, by decide +kernel, by decide +kernel⟩) [c2, a2]
  exact (h 0 (by decide +kernel) _).trans (by decide +kernel)

/-- Of `unresolved_fails`: the function that is called is missing. -/
example : (step id (run id .start [.new, .source 0 [c2, shimOf c2]]) (.compile 0)).2 = .failed :=
  (unresolved_fails id (fun _ _ h => h) [.new, .source 0 [c2, shimOf c2]] 0 (by simp [Made]) _ rfl rfl (by decide +kernel) c2 (by decide +kernel) "assemble".toList (by decide +kernel)
    (by decide +kernel)).1

/-- Two modules whose random names are the same: after both are compiled, the calls of the second run the code of the first, which the loader
still has. Names are drawn by a generator with a fixed seed and no test that they are new. -/
theorem same_path_fails : call (run (fun _ => 7) .start (two ++ [.compile 1])) 1 "compute".toList = .code 1 ∧ (step (fun _ => 7) (run (fun _ => 7) .start two) (.compile 1)).2 = .done := by
  decide +kernel

/-- A module that was never compiled, or a function that it does not have: the call is of a null pointer. -/
theorem call_without_code_fails (paths : Nat → Nat) (hinj : ∀ i j, paths i = paths j → i = j) (h : List Op) (hm : Made 0 h) (n : Name) :
    call (run paths .start (h ++ [.new])) (made h) n = .undefined := by
  obtain ⟨_, _, _, h4⟩ := fresh_text (paths := paths) hinj hm []
  rw [← h4 n]
  have e : h ++ [.new, .source (made h) []] = (h ++ [.new]) ++ [.source (made h) []] := by rw [List.append_assoc]; rfl
  rw [e]
  refine (calls_until_compile paths hinj _ _ _ n ?_ ?_ ?_).symm
  · rw [List.append_assoc]
    refine made_glue hm ?_
    rw [Nat.zero_add]
    exact ⟨Nat.lt_succ_self _, trivial⟩
  · rw [made_append]; exact Nat.lt_succ_self _
  · intro hx; cases List.mem_singleton.mp hx

/-- A text that the compiler rejects stays in the module: what the module gives as its source is not what it runs. -/
theorem rejected_text_stays_fails :
    (run id .start (two ++ compileSource 0 [c2, a2])).mods[0]?.map Mod.source = some ([a1, c1] ++ given [c2, a2])
    ∧ call (run id .start (two ++ compileSource 0 [c2, a2])) 0 "compute".toList = .code 1 := by
  decide +kernel

/-- The libraries after opening one `n` times. -/
def opens (path : Nat) (l : List Def) : Nat → Held → Held
  | 0, t => t
  | n + 1, t => opens path l n (dlopen t path l).1

/-- The libraries after closing one `n` times. -/
def closes (path : Nat) : Nat → Held → Held
  | 0, t => t
  | n + 1, t => closes path n (dlclose t path)

theorem opens_count (path : Nat) (l l' : List Def) : ∀ (n c : Nat) (t : Held), t path = some (l, c) → opens path l' n t path = some (l, c + n)
  | 0, c, t, h => h
  | n + 1, c, t, h => by
    have e : (dlopen t path l').1 path = some (l, c + 1) := by
      unfold dlopen
      simp only [h]
      exact if_pos rfl
    rw [opens, opens_count path l l' n (c + 1) _ e, show c + 1 + n = c + (n + 1) by omega]

theorem closes_none (path : Nat) : ∀ (n : Nat) (t : Held), t path = none → closes path n t path = none
  | 0, _, h => h
  | n + 1, t, h => by
    refine closes_none path n _ ?_
    unfold dlclose
    simp only [h]
    exact if_pos rfl

theorem closes_count (path : Nat) (l : List Def) : ∀ (n c : Nat) (t : Held), t path = some (l, c + 1) →
    closes path n t path = if n < c + 1 then some (l, c + 1 - n) else none
  | 0, c, t, h => by rw [if_pos (by omega)]; exact h
  | n + 1, 0, t, h => by
    rw [if_neg (by omega)]
    refine closes_none path n _ ?_
    unfold dlclose
    simp only [h]
    exact if_pos rfl
  | n + 1, c + 1, t, h => by
    have e : dlclose t path path = some (l, c + 1) := by
      unfold dlclose
      simp only [h]
      exact if_pos rfl
    rw [closes, closes_count path l n c _ e]
    by_cases hn : n < c + 1
    · rw [if_pos hn, if_pos (by omega), show c + 1 + 1 - (n + 1) = c + 1 - n by omega]
    · rw [if_neg hn, if_neg (by omega)]

/-- What the model assumes of the loader: a library that was opened `n + 1` times, with whatever text later, keeps its first text until it is
closed as often. -/
theorem loader_counts (path : Nat) (l l' : List Def) (t : Held) (h : t path = none) (hc : closed l = true) (n k : Nat) :
    (closes path k (opens path l' n (dlopen t path l).1) path).map Prod.fst = if k ≤ n then some l else none := by
  have e : (dlopen t path l).1 path = some (l, 1) := by
    unfold dlopen
    simp only [h]
    rw [if_pos hc]
    exact if_pos rfl
  have e2 := opens_count path l l' n 1 _ e
  rw [Nat.add_comm] at e2
  rw [closes_count path l k n _ e2]
  by_cases hk : k ≤ n
  · rw [if_pos hk, if_pos (by omega)]; rfl
  · rw [if_neg hk, if_neg (by omega)]; rfl

example : closed [c1, a1] = true ∧ (closes 3 1 (opens 3 [c2] 1 (dlopen (fun _ => none) 3 [c1, a1]).1) 3).isSome = true
    ∧ (closes 3 2 (opens 3 [c2] 1 (dlopen (fun _ => none) 3 [c1, a1]).1) 3).isSome = false := by decide +kernel

end Verif.Library
