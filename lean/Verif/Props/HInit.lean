import Verif.Lemmas.HInit

/-!
# Hierarchical subspace models: initialisation of a language and pairing of the languages (C137, C138)
-/

namespace Verif.Props

open Verif Pipeline HInit

variable {T G P U V : Type}

/-! ## C137: `hshmm init` -/

/-- The language whose GSM gives the pdf-vectors, and the file it is looked up in: `--init-from` in the multilingual
file, else `--adapt-from` in the multilingual file, else the language itself in the target file. -/
def sourceOf (lang adaptFrom initFrom : String) (gsm target : HFile T) : Except Err ℕ :=
  if initFrom ≠ "" then dictGet gsm.langs initFrom
  else if adaptFrom ≠ "" then dictGet gsm.langs adaptFrom
  else dictGet target.langs lang

section

variable [Inhabited V] {pdfvecs : T → G → P → List V} {write : U → V → U} {lang adaptFrom initFrom : String}
  {same : Bool} {heap : GHeap T G} {gsm target : HFile T} {posts : List (String × P)} {unitsDict : List (String × ℕ)}
  {nstates groupidx : ℕ} {loops : List (String × Loop U)} {out : InitOut T G U}

theorem source_eq {langs : List (String × ℕ)} {addr : ℕ}
    (hl : (adaptFrom = "" ∧ langs = target.langs) ∨
        (adaptFrom ≠ "" ∧ ∃ a, dictGet gsm.langs adaptFrom = .ok a ∧ langs = dictSet target.langs lang a))
    (ha : (initFrom ≠ "" ∧ dictGet gsm.langs initFrom = .ok addr) ∨ (initFrom = "" ∧ dictGet langs lang = .ok addr)) :
    sourceOf lang adaptFrom initFrom gsm target = .ok addr := by
  unfold sourceOf
  rcases ha with ⟨h1, h2⟩ | ⟨h1, h2⟩
  · rw [if_pos h1, h2]
  · rw [if_neg (by simpa using h1)]
    rcases hl with ⟨h3, h4⟩ | ⟨h3, a, h4, h5⟩
    · rw [if_neg (by simpa using h3), ← h4, h2]
    · rw [if_pos h3, h4]
      rw [h5, dictGet_set_self] at h2
      exact h2

/-- The units of the language are given the pdf-vectors that the GSM of the source language assigns, with the root of the
multilingual file, to the latent posteriors of the language; units beyond those of the file keep theirs. -/
theorem C137_units
    (h : hinit pdfvecs write lang adaptFrom initFrom false heap gsm target posts unitsDict nstates groupidx loops =
      .ok out) (addr nunits g : ℕ) (loop : Loop U) (grp : ℕ × List U) (p : P)
    (ha : sourceOf lang adaptFrom initFrom gsm target = .ok addr) (hn : dictGet unitsDict lang = .ok nunits)
    (hlo : dictGet loops lang = .ok loop) (hg : initGroup (loop.map Prod.fst) groupidx nstates = .ok g)
    (hgr : loop[g]? = some grp) (hp : dictGet posts lang = .ok p) :
    ∃ loop' grp', dictGet out.loops lang = .ok loop' ∧ loop'[g]? = some grp' ∧ grp'.1 = grp.1 ∧
      grp'.2.length = grp.2.length ∧
      (∀ n u v, n < nunits → grp.2[n]? = some u → (pdfvecs gsm.root (heap addr).rest p)[n]? = some v →
        grp'.2[n]? = some (write u v)) ∧
      (∀ n, nunits ≤ n ∨ (pdfvecs gsm.root (heap addr).rest p).length ≤ n → grp'.2[n]? = grp.2[n]?) ∧
      ∀ i, i ≠ g → loop'[i]? = loop[i]? := by
  obtain ⟨langs, addr', nunits', loop', g', p', h1, h2, h3, h4, h5, h6, -, -, h7⟩ := hinit_inv h
  have e1 := source_eq h1 h2
  rw [ha] at e1; rw [hn] at h3; rw [hlo] at h4; rw [hp] at h6
  simp only [Except.ok.injEq] at e1 h3 h4 h6
  subst e1 h3 h4 h6
  rw [hg] at h5
  simp only [Except.ok.injEq] at h5
  subst h5
  have hgD : loop.getD g (0, []) = grp := by rw [List.getD_eq_getElem?_getD, hgr]; rfl
  rw [hgD, if_neg (by simp)] at h7
  have hglt : g < loop.length := by
    by_contra hc
    rw [List.getElem?_eq_none (by omega)] at hgr
    simp at hgr
  have hL := congrArg (fun d => dictGet d lang) h7
  rw [dictGet_set_self] at hL
  refine ⟨_, _, hL, List.getElem?_set_self hglt, rfl, ?_, ?_, ?_, ?_⟩
  · rw [List.length_append, writeUnits_length, ← List.length_append, List.take_append_drop]
  · intro n u v hlt hu hv
    have hnl : n < grp.2.length := by
      by_contra hc
      rw [List.getElem?_eq_none (by omega)] at hu
      simp at hu
    rw [List.getElem?_append_left (by rw [writeUnits_length, List.length_take]; omega)]
    have := writeUnits_get write (grp.2.take nunits) (pdfvecs gsm.root (heap addr).rest p) n u
      (by rw [List.getElem?_take_of_lt hlt, hu])
    rw [this, hv]
  · intro n hb
    by_cases hlt : n < nunits
    · rcases hb with hb | hb
      · omega
      by_cases hnl : n < grp.2.length
      · rw [List.getElem?_append_left (by rw [writeUnits_length, List.length_take]; omega)]
        have := writeUnits_get write (grp.2.take nunits) (pdfvecs gsm.root (heap addr).rest p) n grp.2[n]
          (by rw [List.getElem?_take_of_lt hlt, List.getElem?_eq_getElem hnl])
        rw [this, List.getElem?_eq_none hb, List.getElem?_eq_getElem hnl]
      · rw [List.getElem?_eq_none (by
          rw [List.length_append, writeUnits_length, ← List.length_append, List.take_append_drop]; omega),
          List.getElem?_eq_none (by omega)]
    · have hw : (writeUnits write (grp.2.take nunits) (pdfvecs gsm.root (heap addr).rest p)).length =
          min nunits grp.2.length := by rw [writeUnits_length, List.length_take]
      rw [List.getElem?_append_right (by rw [hw]; omega), hw, List.getElem?_drop]
      by_cases hnl : n < grp.2.length
      · congr 1; omega
      · rw [List.getElem?_eq_none (by omega), List.getElem?_eq_none (by omega)]
  · intro i hi
    exact List.getElem?_set_ne (Ne.symm hi)

/-- With `--same` all the units are given the first pdf-vector. -/
theorem C137_same
    (h : hinit pdfvecs write lang adaptFrom initFrom true heap gsm target posts unitsDict nstates groupidx loops =
      .ok out) (addr nunits g : ℕ) (loop : Loop U) (grp : ℕ × List U) (p : P)
    (ha : sourceOf lang adaptFrom initFrom gsm target = .ok addr) (hn : dictGet unitsDict lang = .ok nunits)
    (hlo : dictGet loops lang = .ok loop) (hg : initGroup (loop.map Prod.fst) groupidx nstates = .ok g)
    (hgr : loop[g]? = some grp) (hp : dictGet posts lang = .ok p) (v : V)
    (hv : (pdfvecs gsm.root (heap addr).rest p)[0]? = some v)
    (n : ℕ) (u : U) (hlt : n < nunits) (hnv : n < (pdfvecs gsm.root (heap addr).rest p).length)
    (hu : grp.2[n]? = some u) :
    ∃ loop' grp', dictGet out.loops lang = .ok loop' ∧ loop'[g]? = some grp' ∧ grp'.2[n]? = some (write u v) := by
  obtain ⟨langs, addr', nunits', loop', g', p', h1, h2, h3, h4, h5, h6, -, -, h7⟩ := hinit_inv h
  have e1 := source_eq h1 h2
  rw [ha] at e1; rw [hn] at h3; rw [hlo] at h4; rw [hp] at h6
  simp only [Except.ok.injEq] at e1 h3 h4 h6
  subst e1 h3 h4 h6
  rw [hg] at h5
  simp only [Except.ok.injEq] at h5
  subst h5
  have hgD : loop.getD g (0, []) = grp := by rw [List.getD_eq_getElem?_getD, hgr]; rfl
  rw [hgD, if_pos rfl] at h7
  have hglt : g < loop.length := by
    by_contra hc
    rw [List.getElem?_eq_none (by omega)] at hgr
    simp at hgr
  have hnl : n < grp.2.length := by
    by_contra hc
    rw [List.getElem?_eq_none (by omega)] at hu
    simp at hu
  have hL := congrArg (fun d => dictGet d lang) h7
  rw [dictGet_set_self] at hL
  refine ⟨_, _, hL, List.getElem?_set_self hglt, ?_⟩
  dsimp only
  rw [List.getElem?_append_left (by rw [writeUnits_length, List.length_take]; omega)]
  rw [writeUnits_get write (grp.2.take nunits) _ n u (by rw [List.getElem?_take_of_lt hlt, hu])]
  generalize pdfvecs gsm.root (heap addr).rest p = vs at hv hnv ⊢
  rw [List.getElem?_map, List.getElem?_eq_getElem hnv]
  cases vs with
  | nil => simp at hv
  | cons w ws =>
    simp only [List.getElem?_cons_zero, Option.some.injEq] at hv
    rw [hv]
    rfl

/-- What is saved: the root of the multilingual file, the languages of the target file, `lang` being the adapted GSM if
one is asked for. Nothing but the root of the source GSM is changed and no phone-loop but that of the language. -/
theorem C137_saved
    (h : hinit pdfvecs write lang adaptFrom initFrom same heap gsm target posts unitsDict nstates groupidx loops =
      .ok out) :
    out.gsm.root = gsm.root ∧
    (∀ l, l ≠ lang → dictGet out.gsm.langs l = dictGet target.langs l) ∧
    (adaptFrom ≠ "" → dictGet out.gsm.langs lang = dictGet gsm.langs adaptFrom) ∧
    (adaptFrom = "" → dictGet out.gsm.langs lang = dictGet target.langs lang) ∧
    (∀ b, (out.heap b).rest = (heap b).rest) ∧
    (∀ b, sourceOf lang adaptFrom initFrom gsm target ≠ .ok b → out.heap b = heap b) ∧
    (∀ l, l ≠ lang → dictGet out.loops l = dictGet loops l) ∧
    out.loops.map Prod.fst = loops.map Prod.fst := by
  obtain ⟨langs, addr', nunits', loop', g', p', h1, h2, h3, h4, h5, h6, h8, h9, h7⟩ := hinit_inv h
  have e1 := source_eq h1 h2
  refine ⟨by rw [h9], fun l hl => ?_, fun hA => ?_, fun hA => ?_, fun b => ?_, fun b hb => ?_, fun l hl => ?_, ?_⟩
  · rw [h9]
    rcases h1 with ⟨-, h1⟩ | ⟨-, a, -, h1⟩
    · rw [h1]
    · rw [h1]
      exact dictGet_set_other _ _ _ _ hl
  · rw [h9]
    rcases h1 with ⟨h1, -⟩ | ⟨-, a, h0, h1⟩
    · exact absurd h1 hA
    · rw [h0, h1]
      exact dictGet_set_self _ _ _
  · rw [h9]
    rcases h1 with ⟨-, h1⟩ | ⟨h1, -⟩
    · rw [h1]
    · exact absurd hA h1
  · rw [h8, setRoot_rest]
  · rw [h8, setRoot_other]
    rintro rfl
    exact hb e1
  · rw [h7, dictGet_set_other _ _ _ _ hl]
  · rw [h7]
    unfold dictSet
    rw [if_pos ((dictGet_isOk _ _).1 ⟨_, h4⟩), List.map_map]
    refine List.map_congr_left fun q _ => ?_
    simp only [Function.comp]
    split
    · rename_i hq; exact hq.symm
    · rfl

/-- The GSM saved for the language has the root of the multilingual file, if the pdf-vectors do not come from another
language. -/
theorem C137_rooted_partial
    (h : hinit pdfvecs write lang adaptFrom initFrom same heap gsm target posts unitsDict nstates groupidx loops =
      .ok out) (hI : initFrom = "" ∨ (adaptFrom ≠ "" ∧ initFrom = adaptFrom)) (a : ℕ)
    (ha : dictGet out.gsm.langs lang = .ok a) : (out.heap a).root = gsm.root := by
  obtain ⟨langs, addr, nunits', loop', g', p', h1, h2, h3, h4, h5, h6, h8, h9, h7⟩ := hinit_inv h
  rw [h9] at ha
  have : a = addr := by
    rcases h2 with ⟨h2, h2'⟩ | ⟨h2, h2'⟩
    · rcases hI with hI | ⟨hA, hI⟩
      · exact absurd hI h2
      · rcases h1 with ⟨h1, -⟩ | ⟨-, b, h0, h1⟩
        · exact absurd h1 hA
        · rw [h1] at ha
          rw [dictGet_set_self] at ha
          rw [hI, h0] at h2'
          simp only [Except.ok.injEq] at ha h2'
          omega
    · rw [h2'] at ha
      simp only [Except.ok.injEq] at ha
      exact ha.symm
  rw [h8, this, setRoot_self]

/-- The violation: with `--init-from` another language the GSM saved for the language keeps the root it had. -/
theorem C137_not_rooted
    (h : hinit pdfvecs write lang adaptFrom initFrom same heap gsm target posts unitsDict nstates groupidx loops =
      .ok out) (hI : initFrom ≠ "") (b : ℕ) (hb : dictGet gsm.langs initFrom = .ok b) :
    ∀ a, dictGet out.gsm.langs lang = .ok a → a ≠ b → out.heap a = heap a := by
  intro a _ hab
  refine (C137_saved h).2.2.2.2.2.1 a ?_
  unfold sourceOf
  rw [if_pos hI, hb]
  simpa using Ne.symm hab

/-- `hshmm init` fails with a `KeyError` when a language is missing in one of the files, and with a division by zero when
the number of states is zero. -/
theorem C137_errors :
    (∀ e, sourceOf lang adaptFrom initFrom gsm target = .error e →
      hinit pdfvecs write lang adaptFrom initFrom same heap gsm target posts unitsDict nstates groupidx loops =
        .error .keyError) ∧
    (adaptFrom ≠ "" → adaptFrom ∉ gsm.langs.map Prod.fst →
      hinit pdfvecs write lang adaptFrom initFrom same heap gsm target posts unitsDict nstates groupidx loops =
        .error .keyError) ∧
    (∀ out, hinit pdfvecs write lang adaptFrom initFrom same heap gsm target posts unitsDict nstates groupidx loops =
        .ok out →
      lang ∈ posts.map Prod.fst ∧ lang ∈ unitsDict.map Prod.fst ∧ lang ∈ loops.map Prod.fst ∧ nstates ≠ 0) := by
  have key : adaptFrom ≠ "" → adaptFrom ∉ gsm.langs.map Prod.fst →
      hinit pdfvecs write lang adaptFrom initFrom same heap gsm target posts unitsDict nstates groupidx loops =
        .error .keyError := by
    intro hA hn
    unfold hinit initLangs
    rw [if_pos hA]
    cases hg : dictGet gsm.langs adaptFrom with
    | error e => rw [(dictGet_not _ _ _ hg).1]; rfl
    | ok v => exact absurd ((dictGet_isOk _ _).1 ⟨v, hg⟩) hn
  refine ⟨fun e he => ?_, key, fun out h => ?_⟩
  · unfold sourceOf at he
    by_cases hA : adaptFrom ≠ "" ∧ adaptFrom ∉ gsm.langs.map Prod.fst
    · exact key hA.1 hA.2
    · have hl : ∃ langs, initLangs lang adaptFrom gsm target = .ok langs ∧
          (adaptFrom = "" → langs = target.langs) ∧
          (adaptFrom ≠ "" → ∃ a, dictGet gsm.langs adaptFrom = .ok a ∧ langs = dictSet target.langs lang a) := by
        unfold initLangs
        by_cases h0 : adaptFrom = ""
        · exact ⟨_, if_neg (by simpa using h0), fun _ => rfl, fun h1 => absurd h0 h1⟩
        · have : adaptFrom ∈ gsm.langs.map Prod.fst := by
            by_contra hc
            exact hA ⟨h0, hc⟩
          obtain ⟨a, ha⟩ := (dictGet_isOk _ _).2 this
          rw [if_pos h0, ha]
          exact ⟨_, rfl, fun h1 => absurd h1 h0, fun _ => ⟨a, rfl, rfl⟩⟩
      obtain ⟨langs, hl, hl1, hl2⟩ := hl
      have hs : initSource lang initFrom gsm langs = .error .keyError := by
        unfold initSource
        by_cases hI : initFrom = ""
        · rw [if_neg (by simpa using hI)] at he ⊢
          by_cases h0 : adaptFrom = ""
          · rw [if_neg (by simpa using h0)] at he
            rw [hl1 h0, he, (dictGet_not _ _ _ he).1]
          · obtain ⟨a, ha, -⟩ := hl2 h0
            rw [if_pos h0, ha] at he
            simp at he
        · rw [if_pos hI] at he ⊢
          rw [he, (dictGet_not _ _ _ he).1]
      unfold hinit
      rw [hl]
      simp only [bind, Except.bind]
      rw [hs]
  · obtain ⟨langs, addr, nunits', loop', g', p', h1, h2, h3, h4, h5, h6, h8, h9, h7⟩ := hinit_inv h
    refine ⟨(dictGet_isOk _ _).1 ⟨_, h6⟩, (dictGet_isOk _ _).1 ⟨_, h3⟩, (dictGet_isOk _ _).1 ⟨_, h4⟩, ?_⟩
    rintro rfl
    unfold initGroup at h5
    split at h5
    · simp at h5
    · rw [if_pos rfl] at h5
      simp at h5

end

/-- `hshmm train` gives every language the root of the file, whatever roots were saved, and changes nothing else. -/
theorem C137_train_roots (root : T) (heap : GHeap T G) (langs : List (String × ℕ)) :
    (∀ l a, dictGet langs l = .ok a → (rootAll root heap langs a).root = root) ∧
    (∀ a, (rootAll root heap langs a).rest = (heap a).rest) ∧
    (∀ a, a ∉ langs.map Prod.snd → rootAll root heap langs a = heap a) := by
  have key : ∀ (langs : List (String × ℕ)) (heap : GHeap T G),
      (∀ a, a ∈ langs.map Prod.snd ∨ (heap a).root = root → (rootAll root heap langs a).root = root) ∧
      (∀ a, (rootAll root heap langs a).rest = (heap a).rest) ∧
      (∀ a, a ∉ langs.map Prod.snd → rootAll root heap langs a = heap a) := by
    intro langs
    induction langs with
    | nil =>
      intro heap
      refine ⟨fun a ha => ?_, fun a => rfl, fun a _ => rfl⟩
      rcases ha with ha | ha
      · simp at ha
      · exact ha
    | cons l ls ih =>
      intro heap
      obtain ⟨i1, i2, i3⟩ := ih (setRoot heap l.2 root)
      have e : rootAll root heap (l :: ls) = rootAll root (setRoot heap l.2 root) ls := rfl
      rw [e]
      refine ⟨fun a ha => ?_, fun a => ?_, fun a ha => ?_⟩
      · apply i1
        by_cases hal : a = l.2
        · right; rw [hal, setRoot_self]
        · rcases ha with ha | ha
          · rw [List.map_cons, List.mem_cons] at ha
            exact .inl (ha.resolve_left hal)
          · right; rw [setRoot_other _ _ _ _ hal]; exact ha
      · rw [i2, setRoot_rest]
      · rw [List.map_cons, List.mem_cons] at ha
        push Not at ha
        rw [i3 a ha.2, setRoot_other _ _ _ _ ha.1]
  obtain ⟨k1, k2, k3⟩ := key langs heap
  exact ⟨fun l a h => k1 a (.inl (List.mem_map.2 ⟨_, dictGet_mem _ _ _ h, rfl⟩)), k2, k3⟩

/-- The group training takes has the most emissions. -/
theorem C137_largest (lens : List ℕ) (groupidx : ℕ) :
    (groupidx < lens.length → ∃ i, largestIdx lens groupidx = .ok i ∧ i < lens.length ∧
      ∀ j, j < lens.length → lens.getD j 0 ≤ lens.getD i 0) ∧
    (lens.length ≤ groupidx → largestIdx lens groupidx = .error .indexError) := by
  constructor
  · intro h
    obtain ⟨h1, h2, -⟩ := largestFrom_spec lens lens 0 groupidx rfl h
    refine ⟨_, ?_, h1, fun j hj => h2 j (by omega) hj⟩
    unfold largestIdx pyIndex
    rw [if_pos (by omega), if_pos (by simpa using h)]
    rfl
  · intro h
    unfold largestIdx pyIndex
    rw [if_pos (by omega), if_neg (by simpa using h)]

/-- With two groups, the index of the file being 0 or 1, initialisation writes to the group that training takes, if the
group of the file has fewer than two units and is smaller, or has two units or more and is not smaller. -/
theorem C137_group_partial (a b nstates : ℕ) (hs : nstates ≠ 0) :
    ((a / nstates < 2 ∧ a < b) ∨ (2 ≤ a / nstates ∧ b ≤ a) → initGroup [a, b] 0 nstates = largestIdx [a, b] 0) ∧
    ((b / nstates < 2 ∧ b < a) ∨ (2 ≤ b / nstates ∧ a ≤ b) → initGroup [a, b] 1 nstates = largestIdx [a, b] 1) := by
  have e0 : pyIndex 2 0 = .ok 0 := by decide
  have e1 : pyIndex 2 1 = .ok 1 := by decide
  constructor
  · intro h
    unfold initGroup largestIdx
    have e : pyIndex [a, b].length ((0 : ℕ) : ℤ) = .ok 0 := e0
    rw [e]
    dsimp only
    rw [if_neg hs]
    rcases h with ⟨h1, h2⟩ | ⟨h1, h2⟩
    · rw [if_pos (by simpa using h1)]
      show pyIndex 2 1 = _
      rw [e1]
      simp [largestFrom, h2]
    · rw [if_neg (by simp; omega)]
      have : ¬ a < b := by omega
      simp [largestFrom, this]
  · intro h
    unfold initGroup largestIdx
    have e : pyIndex [a, b].length ((1 : ℕ) : ℤ) = .ok 1 := e1
    rw [e]
    dsimp only
    rw [if_neg hs]
    rcases h with ⟨h1, h2⟩ | ⟨h1, h2⟩
    · rw [if_pos (by simpa using h1)]
      show pyIndex 2 0 = _
      rw [e0]
      simp [largestFrom, h2, h2.le]
    · rw [if_neg (by simp; omega)]
      have : ¬ b < a := by omega
      simp [largestFrom, this]

/-- The group initialisation takes in full: the group of the file if it has two units or more; else group `1` for group `0` and group `0`
for group `1`; and for a group `g ≥ 2` of `N` the group `N + 1 - g`, counted from the end, which for the third of three groups is the group
just found to be too small. -/
theorem C137_fallback (lens : List ℕ) (g nstates : ℕ) (hg : g < lens.length) (hs : nstates ≠ 0) :
    (2 ≤ lens.getD g 0 / nstates → initGroup lens g nstates = .ok g) ∧
    (lens.getD g 0 / nstates < 2 → 2 ≤ g → initGroup lens g nstates = .ok (lens.length + 1 - g)) ∧
    (lens.getD g 0 / nstates < 2 → g = 1 → initGroup lens g nstates = .ok 0) ∧
    (lens.getD g 0 / nstates < 2 → g = 0 → 2 ≤ lens.length → initGroup lens g nstates = .ok 1) := by
  have e : pyIndex lens.length (g : ℤ) = .ok g := by
    unfold pyIndex
    rw [if_pos (by omega), if_pos (by omega)]
    rfl
  unfold initGroup
  rw [e]
  dsimp only
  rw [if_neg hs]
  refine ⟨fun h => by rw [if_neg (by omega)], fun h h2 => ?_, fun h h2 => ?_, fun h h2 h3 => ?_⟩
  · rw [if_pos h]
    unfold pyIndex
    rw [if_neg (by omega), if_pos (by omega)]
    congr 1
    omega
  · subst h2
    rw [if_pos h]
    unfold pyIndex
    rw [if_pos (by norm_num), if_pos (by norm_num; omega)]
    rfl
  · subst h2
    rw [if_pos h]
    unfold pyIndex
    rw [if_pos (by norm_num), if_pos (by norm_num; omega)]
    rfl

example : initGroup [300, 6, 3] 2 3 = .ok 2 ∧ initGroup [300, 6, 3, 3] 2 3 = .ok 3 ∧ initGroup [300, 3, 6] 1 3 = .ok 0 := by
  refine ⟨by decide, by decide, by decide⟩

/-- The violation: with two silence units and a hundred speech units initialisation writes to the silence units, which
training does not use; and a phone-loop with a single group of one unit cannot be initialised. -/
theorem C137_group_fails :
    initGroup [6, 300] 0 3 = .ok 0 ∧ largestIdx [6, 300] 0 = .ok 1 ∧
    initGroup [3] 0 3 = .error .indexError ∧ largestIdx [3] 0 = .ok 0 := by
  refine ⟨by decide, by decide, by decide, by decide⟩

/-! Examples: root 7 in the multilingual file, stale roots 1, 2 and 3 in the GSMs. -/

def demoHeap : GHeap ℕ ℕ := fun a => ⟨a + 1, 10 * a⟩

def demoMulti : HFile ℕ := ⟨7, [("fr", 0), ("de", 1)]⟩

def demoTarget : HFile ℕ := ⟨1, [("yo", 2)]⟩

def demoPdf (root rest p : ℕ) : List ℕ := [100 * root + rest + p, 100 * root + rest + p + 1]

def demoRun (adaptFrom initFrom : String) (same : Bool) : Except Err (InitOut ℕ ℕ ℕ) :=
  hinit demoPdf (fun _ v => v) "yo" adaptFrom initFrom same demoHeap demoMulti demoTarget [("yo", 3)] [("yo", 2)] 3 0
    [("yo", [(3, [0]), (9, [0, 0, 0])])]

example : (demoRun "" "" false).map (fun o => o.loops) = .ok [("yo", [(3, [0]), (9, [723, 724, 0])])] := by
  decide +kernel

example : (demoRun "" "" false).map (fun o => (o.gsm.langs, (o.heap 2).root)) = .ok ([("yo", 2)], 7) := by
  decide +kernel

example : (demoRun "fr" "" false).map (fun o => o.loops) = .ok [("yo", [(3, [0]), (9, [703, 704, 0])])] := by
  decide +kernel

example : (demoRun "fr" "" false).map (fun o => (o.gsm.langs, (o.heap 0).root)) = .ok ([("yo", 0)], 7) := by
  decide +kernel

example : (demoRun "" "" true).map (fun o => o.loops) =
    .ok [("yo", [(3, [0]), (9, [723, 723, 0])])] := by decide +kernel

/-- The GSM of `yo` keeps its root 3 although the root saved is 7. -/
example : (demoRun "" "de" false).map (fun o => (o.gsm.root, o.gsm.langs, (o.heap 2).root, (o.heap 1).root)) =
    .ok (7, [("yo", 2)], 3, 7) := by decide +kernel

example : (demoRun "es" "" false).map (fun o => o.loops) = .error .keyError := by decide +kernel

example : (demoRun "fr" "es" false).map (fun o => o.loops) = .error .keyError := by decide +kernel

example : ((rootAll 7 demoHeap [("fr", 0), ("yo", 2)] 2).root, (rootAll 7 demoHeap [("fr", 0), ("yo", 2)] 1).root) =
    (7, 2) := by decide +kernel

example : initGroup [3, 300] 0 3 = .ok 1 ∧ largestIdx [3, 300] 0 = .ok 1 := by decide

/-! ## C138: the order of the languages -/

/-- The dictionaries that `hshmm mksphoneloop` saves list the languages in the same order, each once, and are exactly the
languages of the file of phone-loops. -/
theorem C138_created (post : String → P) (lines : List (String × String)) :
    let d := mkDicts post (langsOf lines) 0 [] []
    d.1.map Prod.fst = d.2.map Prod.fst ∧ (d.1.map Prod.fst).Nodup ∧
      (∀ l, l ∈ d.1.map Prod.fst ↔ l ∈ lines.map Prod.snd) ∧
      ∀ l, l ∈ lines.map Prod.snd → dictGet d.2 l = .ok (post l) := by
  have hmem : ∀ {β : Type} (d : List (String × β)) (k : String) (v : β) (l : String),
      l ∈ (dictSet d k v).map Prod.fst ↔ l ∈ d.map Prod.fst ∨ l = k := by
    intro β d k v l
    rw [← dictGet_isOk, ← dictGet_isOk]
    by_cases hlk : l = k
    · subst hlk
      rw [dictGet_set_self]
      simp
    · rw [dictGet_set_other _ _ _ _ hlk]
      simp [hlk]
  have hkeys : ∀ {β γ : Type} (d : List (String × β)) (d' : List (String × γ)) (k : String) (v : β) (v' : γ),
      d.map Prod.fst = d'.map Prod.fst → (dictSet d k v).map Prod.fst = (dictSet d' k v').map Prod.fst := by
    intro β γ d d' k v v' h
    unfold dictSet
    rw [h]
    have hm : ∀ {β : Type} (d : List (String × β)) (v : β),
        (d.map fun p => if p.1 = k then (k, v) else p).map Prod.fst = d.map Prod.fst := by
      intro β d v
      rw [List.map_map]
      refine List.map_congr_left fun q _ => ?_
      simp only [Function.comp]
      split
      · rename_i hq; exact hq.symm
      · rfl
    by_cases hk : k ∈ d'.map Prod.fst
    · rw [if_pos hk, if_pos hk, hm, hm, h]
    · rw [if_neg hk, if_neg hk, List.map_append, List.map_append, h]
      rfl
  have hl : ∀ l, l ∈ (langsOf lines).map Prod.fst ↔ l ∈ lines.map Prod.snd := by
    have : ∀ (lines : List (String × String)) (d : List (String × String)) (l : String),
        l ∈ (lines.foldl (fun d l => dictSet d l.2 l.1) d).map Prod.fst ↔
          l ∈ d.map Prod.fst ∨ l ∈ lines.map Prod.snd := by
      intro lines
      induction lines with
      | nil => intro d l; simp
      | cons x xs ih =>
        intro d l
        rw [List.foldl_cons, ih, hmem, List.map_cons, List.mem_cons, or_assoc]
    intro l
    unfold langsOf
    rw [this]
    simp
  have main : ∀ (ls : List (String × String)) (a : ℕ) (gsms : List (String × ℕ)) (posts : List (String × P)),
      gsms.map Prod.fst = posts.map Prod.fst → (gsms.map Prod.fst).Nodup →
      (∀ l ∈ posts.map Prod.fst, dictGet posts l = .ok (post l)) →
      let d := mkDicts post ls a gsms posts
      d.1.map Prod.fst = d.2.map Prod.fst ∧ (d.1.map Prod.fst).Nodup ∧
      (∀ l, l ∈ d.1.map Prod.fst ↔ l ∈ gsms.map Prod.fst ∨ l ∈ ls.map Prod.fst) ∧
      ∀ l ∈ d.2.map Prod.fst, dictGet d.2 l = .ok (post l) := by
    intro ls
    induction ls with
    | nil =>
      intro a gsms posts h1 h2 h3
      exact ⟨h1, h2, fun l => by simp [mkDicts], h3⟩
    | cons x xs ih =>
      intro a gsms posts h1 h2 h3
      obtain ⟨lang, f⟩ := x
      have h := ih (a + 1) (dictSet gsms lang a) (dictSet posts lang (post lang)) (hkeys _ _ _ _ _ h1)
        (dictSet_nodup _ _ _ h2) (by
          intro l hl
          by_cases hlk : l = lang
          · subst hlk; exact dictGet_set_self _ _ _
          · rw [dictGet_set_other _ _ _ _ hlk]
            exact h3 l (((hmem _ _ _ _).1 hl).resolve_right hlk))
      obtain ⟨i1, i2, i3, i4⟩ := h
      refine ⟨i1, i2, fun l => ?_, i4⟩
      show l ∈ (mkDicts post xs (a + 1) (dictSet gsms lang a) (dictSet posts lang (post lang))).1.map Prod.fst ↔ _
      rw [i3, hmem, List.map_cons, List.mem_cons, or_assoc]
  obtain ⟨m1, m2, m3, m4⟩ := main (langsOf lines) 0 [] [] rfl List.nodup_nil (by simp)
  have m3' : ∀ l, l ∈ (mkDicts post (langsOf lines) 0 [] []).1.map Prod.fst ↔ l ∈ lines.map Prod.snd := by
    intro l
    rw [m3, hl]
    simp
  refine ⟨m1, m2, m3', fun l hl => m4 l ?_⟩
  rw [← m1, m3']
  exact hl

/-- `hshmm init` keeps the order of the languages of the target file, which its latent posteriors have. -/
theorem C138_initialised [Inhabited V] {pdfvecs : T → G → P → List V} {write : U → V → U}
    {lang adaptFrom initFrom : String} {same : Bool} {heap : GHeap T G} {gsm target : HFile T}
    {posts : List (String × P)} {unitsDict : List (String × ℕ)} {nstates groupidx : ℕ} {loops : List (String × Loop U)}
    {out : InitOut T G U}
    (h : hinit pdfvecs write lang adaptFrom initFrom same heap gsm target posts unitsDict nstates groupidx loops =
      .ok out) (hk : target.langs.map Prod.fst = posts.map Prod.fst) :
    out.gsm.langs.map Prod.fst = posts.map Prod.fst := by
  obtain ⟨langs, addr, nunits', loop', g', p', h1, h2, h3, h4, h5, h6, h8, h9, h7⟩ := hinit_inv h
  rw [h9]
  rcases h1 with ⟨-, h1⟩ | ⟨-, a, -, h1⟩
  · rw [h1]; exact hk
  · rw [h1]
    have hin : lang ∈ target.langs.map Prod.fst := by
      rw [hk]; exact (dictGet_isOk _ _).1 ⟨_, h6⟩
    show (dictSet target.langs lang a).map Prod.fst = _
    unfold dictSet
    rw [if_pos hin, ← hk, List.map_map]
    refine List.map_congr_left fun q _ => ?_
    simp only [Function.comp]
    split
    · rename_i hq; exact hq.symm
    · rfl

/-- When the files list the languages in the same order, training pairs the GSM of every language with the units and the
latent posteriors of that language, and trains all of them. -/
theorem C138_pairs_partial (gsms : List (String × ℕ)) (units : List (String × List U)) (posts : List (String × P))
    (hk : gsms.map Prod.fst = posts.map Prod.fst) (hn : (posts.map Prod.fst).Nodup) (ps : List ((ℕ × List U) × P))
    (h : trainPairs gsms units posts = .ok ps) :
    ps.length = gsms.length ∧
    ∀ (i : ℕ) l a, gsms[i]? = some (l, a) → ∃ us p, dictGet units l = .ok us ∧ dictGet posts l = .ok p ∧
      ps[i]? = some ((a, us), p) := by
  have hm : ∀ (gs : List (String × ℕ)) (ms : List (ℕ × List U)), modelsAndUnits units gs = .ok ms →
      ms.length = gs.length ∧
      ∀ (i : ℕ) l a, gs[i]? = some (l, a) → ∃ us, dictGet units l = .ok us ∧ ms[i]? = some (a, us) := by
    intro gs
    induction gs with
    | nil =>
      intro ms h
      unfold modelsAndUnits at h
      simp only [Except.ok.injEq] at h
      subst h
      exact ⟨rfl, fun i l a h => by simp at h⟩
    | cons x xs ih =>
      intro ms h
      obtain ⟨l, a⟩ := x
      unfold modelsAndUnits at h
      cases hu : dictGet units l with
      | error e => rw [hu] at h; simp [bind, Except.bind] at h
      | ok us =>
        cases hr : modelsAndUnits units xs with
        | error e => rw [hu, hr] at h; simp [bind, Except.bind] at h
        | ok rest =>
          rw [hu, hr] at h
          simp only [bind, Except.bind, pure, Except.pure, Except.ok.injEq] at h
          subst h
          obtain ⟨i1, i2⟩ := ih rest hr
          refine ⟨by simp [i1], fun i l' a' hi => ?_⟩
          cases i with
          | zero =>
            simp only [List.getElem?_cons_zero, Option.some.injEq, Prod.mk.injEq] at hi
            obtain ⟨rfl, rfl⟩ := hi
            exact ⟨us, hu, rfl⟩
          | succ i =>
            simp only [List.getElem?_cons_succ] at hi ⊢
            exact i2 i l' a' hi
  unfold trainPairs at h
  cases hr : modelsAndUnits units gsms with
  | error e => rw [hr] at h; simp [bind, Except.bind] at h
  | ok ms =>
    rw [hr] at h
    simp only [bind, Except.bind, pure, Except.pure, Except.ok.injEq] at h
    subst h
    obtain ⟨m1, m2⟩ := hm gsms ms hr
    have hlen : posts.length = gsms.length := by
      have := congrArg List.length hk
      simpa using this.symm
    refine ⟨by simp [m1, hlen], fun i l a hi => ?_⟩
    obtain ⟨us, hus, hms⟩ := m2 i l a hi
    have hpi : (posts.map Prod.fst)[i]? = some l := by rw [← hk, List.getElem?_map, hi]; rfl
    rw [List.getElem?_map] at hpi
    cases hp : posts[i]? with
    | none => rw [hp] at hpi; simp at hpi
    | some q =>
      rw [hp] at hpi
      simp only [Option.map_some, Option.some.injEq] at hpi
      refine ⟨us, q.2, hus, dictGet_of_mem posts l q.2 hn ?_, ?_⟩
      · rw [← hpi]
        exact List.mem_of_getElem? hp
      · rw [List.getElem?_zip_eq_some]
        exact ⟨hms, by rw [List.getElem?_map, hp]; rfl⟩

/-- The violation: the pairing goes by position. With the same languages in another order every language is trained with
the latent posteriors of another one; a language without posteriors is not trained, and nothing is reported. -/
theorem C138_pairs_fails :
    trainPairs [("fr", 0), ("de", 1)] [("fr", ["u"]), ("de", ["v"])] [("de", "post de"), ("fr", "post fr")] =
      .ok [((0, ["u"]), "post de"), ((1, ["v"]), "post fr")] ∧
    trainPairs [("fr", 0), ("de", 1)] [("fr", ["u"]), ("de", ["v"])] [("de", "post de")] =
      .ok [((0, ["u"]), "post de")] := by
  refine ⟨by decide +kernel, by decide +kernel⟩

/-- The units trained: for a listed language those of the largest group of its phone-loop, as many as before; for the
other languages those saved in the file of the posteriors, apart from the phone-loops. The order of the languages stays.
-/
theorem C138_units (groupidx : ℕ) (loops : List (String × Loop U)) (hn : (loops.map Prod.fst).Nodup)
    (units out : List (String × List U)) (h : trainUnits groupidx loops units = .ok out) :
    out.map Prod.fst = units.map Prod.fst ∧
    (∀ l, l ∉ loops.map Prod.fst → dictGet out l = dictGet units l) ∧
    (∀ l loop, dictGet loops l = .ok loop → ∃ g old, largestIdx (loop.map Prod.fst) groupidx = .ok g ∧
      dictGet units l = .ok old ∧ dictGet out l = .ok ((loop.getD g (0, [])).2.take old.length)) := by
  induction loops generalizing units with
  | nil =>
    unfold trainUnits at h
    simp only [Except.ok.injEq] at h
    subst h
    exact ⟨rfl, fun _ _ => rfl, fun l loop hl => by simp [dictGet] at hl⟩
  | cons x xs ih =>
    obtain ⟨lang, loop⟩ := x
    rw [List.map_cons, List.nodup_cons] at hn
    unfold trainUnits at h
    cases hg : largestIdx (loop.map Prod.fst) groupidx with
    | error e => rw [hg] at h; simp [bind, Except.bind] at h
    | ok g =>
      cases ho : dictGet units lang with
      | error e => rw [hg, ho] at h; simp [bind, Except.bind] at h
      | ok old =>
        rw [hg, ho] at h
        simp only [bind, Except.bind] at h
        obtain ⟨i1, i2, i3⟩ := ih hn.2 _ h
        refine ⟨?_, fun l hl => ?_, fun l lp hl => ?_⟩
        · rw [i1]
          unfold dictSet
          rw [if_pos ((dictGet_isOk _ _).1 ⟨_, ho⟩), List.map_map]
          refine List.map_congr_left fun q _ => ?_
          simp only [Function.comp]
          split
          · rename_i hq; exact hq.symm
          · rfl
        · rw [List.map_cons, List.mem_cons] at hl
          push Not at hl
          rw [i2 l hl.2, dictGet_set_other _ _ _ _ hl.1]
        · by_cases hll : l = lang
          · subst hll
            have : lp = loop := by
              unfold dictGet at hl
              rw [List.find?_cons_of_pos (by simp)] at hl
              simpa using hl.symm
            subst this
            refine ⟨g, old, hg, ho, ?_⟩
            rw [i2 l hn.1, dictGet_set_self]
          · have hl' : dictGet xs l = .ok lp := by
              unfold dictGet at hl ⊢
              rw [List.find?_cons_of_neg (by simpa using fun h => hll h.symm)] at hl
              exact hl
            obtain ⟨g', old', k1, k2, k3⟩ := i3 l lp hl'
            rw [dictGet_set_other _ _ _ _ hll] at k2
            exact ⟨g', old', k1, k2, k3⟩

/-- The phone-loop of a listed language is the one of its last line, under the name of the language; every language is listed
once, so that `C138_units` applies. -/
theorem C138_loops (loop : String → Loop U) (lines : List (String × String)) :
    ((loadLoops loop lines).map Prod.fst).Nodup ∧
    (∀ l, l ∈ (loadLoops loop lines).map Prod.fst ↔ l ∈ lines.map Prod.snd) ∧
    ∀ before path lang after, lines = before ++ (path, lang) :: after → lang ∉ after.map Prod.snd →
      dictGet (loadLoops loop lines) lang = .ok (loop path) := by
  refine ⟨?_, fun l => ?_, ?_⟩
  · induction lines using List.reverseRecOn with
    | nil => exact List.nodup_nil
    | append_singleton xs x ih =>
      unfold loadLoops at ih ⊢
      rw [List.foldl_append, List.foldl_cons, List.foldl_nil]
      unfold dictSet
      split
      · rw [List.map_map]
        convert ih using 1
        refine List.map_congr_left fun q _ => ?_
        simp only [Function.comp]
        split
        · rename_i hq; exact hq.symm
        · rfl
      · rename_i hk
        rw [List.map_append, List.nodup_append]
        exact ⟨ih, by simp, fun a ha b hb => by
          simp only [List.map_cons, List.map_nil, List.mem_singleton] at hb
          rintro rfl
          exact hk (hb ▸ ha)⟩
  · induction lines using List.reverseRecOn with
    | nil => simp [loadLoops]
    | append_singleton xs x ih =>
      unfold loadLoops at ih ⊢
      rw [List.foldl_append, List.foldl_cons, List.foldl_nil, List.map_append, List.mem_append, ← ih, List.map_cons, List.map_nil, List.mem_singleton]
      unfold dictSet
      split
      · rename_i hk
        rw [List.map_map]
        have e : (Prod.fst ∘ fun p : String × Loop U => if p.1 = x.2 then (x.2, loop x.1) else p) = Prod.fst := by
          funext q
          simp only [Function.comp]
          split
          · rename_i hq; exact hq.symm
          · rfl
        rw [e]
        constructor
        · exact Or.inl
        · rintro (h | rfl)
          · exact h
          · exact hk
      · rw [List.map_append, List.mem_append]
        simp
  · rintro before path lang after rfl
    induction after using List.reverseRecOn with
    | nil =>
      intro _
      unfold loadLoops
      rw [List.foldl_append, List.foldl_cons, List.foldl_nil, dictGet_set_self]
    | append_singleton xs x ih =>
      intro h
      rw [List.map_append, List.mem_append] at h
      push Not at h
      have := ih h.1
      unfold loadLoops at this ⊢
      rw [← List.cons_append, ← List.append_assoc, List.foldl_append, List.foldl_cons, List.foldl_nil,
        dictGet_set_other _ _ _ _ (by simpa using h.2)]
      exact this

/-- A listed language whose units are not in the file of the posteriors is a `KeyError`, and so is a language with a GSM
but no units. -/
theorem C138_errors (groupidx : ℕ) (l : String) (loop : Loop U) (ls : List (String × Loop U))
    (units : List (String × List U)) (hl : l ∉ units.map Prod.fst) :
    (groupidx < loop.length → trainUnits groupidx ((l, loop) :: ls) units = .error .keyError) ∧
    ∀ a gsms (posts : List (String × P)), trainPairs ((l, a) :: gsms) units posts = .error .keyError := by
  have hu : dictGet units l = .error .keyError := by
    cases hu : dictGet units l with
    | error e => rw [(dictGet_not _ _ _ hu).1]
    | ok v => exact absurd ((dictGet_isOk _ _).1 ⟨v, hu⟩) hl
  constructor
  · intro hg
    obtain ⟨i, hi, -⟩ := (C137_largest (loop.map Prod.fst) groupidx).1 (by simpa using hg)
    unfold trainUnits
    rw [hi, hu]
    rfl
  · intro a gsms posts
    unfold trainPairs modelsAndUnits
    rw [hu]
    rfl

example : mkDicts (fun l => l ++ ".post") (langsOf [("a.mdl", "fr"), ("b.mdl", "de"), ("c.mdl", "fr")]) 0 [] [] =
    ([("fr", 0), ("de", 1)], [("fr", "fr.post"), ("de", "de.post")]) := by decide +kernel

example : trainPairs [("fr", 0), ("de", 1)] [("de", ["v"]), ("fr", ["u"])] [("fr", "post fr"), ("de", "post de")] =
    .ok [((0, ["u"]), "post fr"), ((1, ["v"]), "post de")] := by decide +kernel

example : trainUnits 0 [("fr", [(3, ["sil"]), (6, ["a", "b"])])] [("fr", ["x", "y"]), ("de", ["z"])] =
    .ok [("fr", ["a", "b"]), ("de", ["z"])] := by decide +kernel

example : trainUnits 0 [("es", [(3, ["sil"])])] [("fr", ["x", "y"])] = .error .keyError := by decide +kernel

example : loadLoops (fun p => [(3, [p])]) [("a.mdl", "fr"), ("b.mdl", "de"), ("c.mdl", "fr")] =
    [("fr", [(3, ["c.mdl"])]), ("de", [(3, ["b.mdl"])])] := by decide +kernel

end Verif.Props
