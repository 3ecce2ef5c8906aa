import Verif.Spec.ModelSet
import Mathlib.Tactic.Ring
import Mathlib.Tactic.Linarith
import Mathlib.Data.List.Basic
import Mathlib.Data.List.GetD

/-!
# C67, C70: super-vectors of subspace models, replacing parameters
-/

namespace Verif.Props

open Verif.ModelSet

/-! ## C67 -/

section

variable {R : Type*}

theorem updateParams_ok (vec : List R) (ps : List (SubParam R)) (idx : ℕ)
    (h : idx + (ps.map SubParam.numel).sum ≤ vec.length) :
    ∃ out, updateParams vec ps idx = .ok out ∧
      out.flatten = (vec.drop idx).take (ps.map SubParam.numel).sum ∧
      out.map List.length = ps.map SubParam.numel := by
  induction ps generalizing idx with
  | nil => exact ⟨[], rfl, by simp, rfl⟩
  | cons p ps ih =>
    rw [List.map_cons, List.sum_cons] at h
    obtain ⟨out, h1, h2, h3⟩ := ih (idx + p.numel) (by omega)
    have hlen : ((vec.take (idx + p.numel)).drop idx).length = p.numel := by
      rw [List.length_drop, List.length_take]; omega
    refine ⟨(vec.take (idx + p.numel)).drop idx :: out, ?_, ?_, ?_⟩
    · unfold updateParams
      dsimp only
      rw [if_neg (by omega), h1]
    · rw [List.flatten_cons, h2, List.map_cons, List.sum_cons]
      rw [List.drop_take, Nat.add_sub_cancel_left, ← List.drop_drop, List.take_add]
    · rw [List.map_cons, h3, List.map_cons, hlen]

/-- C67, writing a vector back: when the vector has the size of the parameters together, every
parameter receives a slice of its own size, and the slices put together are the vector. -/
theorem C67_update_params (vec : List R) (ps : List (SubParam R))
    (h : vec.length = (ps.map SubParam.numel).sum) :
    ∃ out, updateParams vec ps 0 = .ok out ∧ out.flatten = vec ∧
      out.map List.length = ps.map SubParam.numel := by
  obtain ⟨out, h1, h2, h3⟩ := updateParams_ok vec ps 0 (by omega)
  refine ⟨out, h1, ?_, h3⟩
  rw [h2, List.drop_zero, ← h, List.take_length]

example : updateParams [1, 2, 3, 4, 5] [⟨1, 1, 2, id, 2⟩, ⟨1, 1, 3, id, 3⟩] 0 =
    .ok [[1, 2], [3, 4, 5]] := by decide +kernel

/-- C67: a vector that is too short is refused. -/
theorem C67_short_vector (vec : List R) (ps : List (SubParam R)) :
    (∃ e, updateParams vec ps 0 = .error e) ↔ vec.length < (ps.map SubParam.numel).sum := by
  constructor
  · rintro ⟨e, he⟩
    by_contra hn
    obtain ⟨out, h1, -⟩ := updateParams_ok vec ps 0 (by omega)
    rw [h1] at he
    cases he
  · intro h
    have key : ∀ (ps : List (SubParam R)) (idx : ℕ), idx ≤ vec.length →
        vec.length < idx + (ps.map SubParam.numel).sum →
        ∃ e, updateParams vec ps idx = .error e := by
      intro ps
      induction ps with
      | nil => intro idx _ h; simp at h; omega
      | cons p ps ih =>
        intro idx hidx h
        rw [List.map_cons, List.sum_cons] at h
        unfold updateParams
        dsimp only
        by_cases hs : ((vec.take (idx + p.numel)).drop idx).length ≠ p.numel
        · rw [if_pos hs]; exact ⟨_, rfl⟩
        · rw [if_neg hs]
          rw [not_not, List.length_drop, List.length_take] at hs
          obtain ⟨e, he⟩ := ih (idx + p.numel) (by omega) (by omega)
          rw [he]
          exact ⟨_, rfl⟩
    exact key ps 0 (Nat.zero_le _) (by omega)

example : updateParams [1, 2, 3] [⟨1, 1, 2, id, 2⟩, ⟨1, 1, 3, id, 3⟩] 0 = .error .runtimeError := by
  decide +kernel

theorem chunks_append (k : ℕ) (hk : 0 < k) (a l : List R) (ha : a.length = k) :
    chunks k (a ++ l) = a :: chunks k l := by
  unfold chunks
  have e : (a ++ l).length / k = l.length / k + 1 := by
    rw [List.length_append, ha, Nat.add_comm, Nat.add_div_right _ hk]
  rw [e, List.range_succ_eq_map, List.map_cons, List.map_map]
  congr 1
  · simp [← ha]
  · apply List.map_congr_left
    intro i _
    simp only [Function.comp, Nat.succ_eq_add_one]
    rw [List.drop_append, List.drop_of_length_le (by rw [ha, Nat.add_mul]; omega), List.nil_append]
    congr 2
    rw [ha, Nat.add_mul]
    omega

/-- `reshape(-1, k)` undoes the flattening of rows of length `k`. -/
theorem chunks_flatten (k : ℕ) (hk : 0 < k) (rows : List (List R)) (h : ∀ r ∈ rows, r.length = k) :
    chunks k rows.flatten = rows := by
  induction rows with
  | nil => simp [chunks]
  | cons r rows ih =>
    rw [List.flatten_cons, chunks_append k hk r _ (h r (by simp)),
      ih fun r hr => h r (List.mem_cons_of_mem _ hr)]

theorem chunks_spec (k n : ℕ) (hk : 0 < k) (l : List R) (h : l.length = n * k) :
    (chunks k l).flatten = l ∧ (chunks k l).length = n ∧ ∀ c ∈ chunks k l, c.length = k := by
  induction n generalizing l with
  | zero =>
    rw [Nat.zero_mul] at h
    rw [List.length_eq_zero_iff.1 h]
    simp [chunks]
  | succ n ih =>
    rw [Nat.add_mul, Nat.one_mul] at h
    have e : l = l.take k ++ l.drop k := (List.take_append_drop k l).symm
    obtain ⟨h1, h2, h3⟩ := ih (l.drop k) (by rw [List.length_drop]; omega)
    have hk' : (l.take k).length = k := by rw [List.length_take]; omega
    rw [e, chunks_append k hk _ _ hk']
    refine ⟨by rw [List.flatten_cons, h1], by rw [List.length_cons, h2], ?_⟩
    intro c hc
    rcases List.mem_cons.1 hc with rfl | hc
    · exact hk'
    · exact h3 c hc

/-- Chunks of concatenated rows whose lengths are multiples of `k`. -/
theorem chunks_rows (k n : ℕ) (hk : 0 < k) (rows : List (List R)) (h : ∀ r ∈ rows, r.length = n * k) :
    chunks k rows.flatten = rows.flatMap (chunks k) := by
  induction rows with
  | nil => simp [chunks]
  | cons r rows ih =>
    rw [List.flatten_cons, List.flatMap_cons, ← ih fun r hr => h r (List.mem_cons_of_mem _ hr)]
    obtain ⟨h1, h2, h3⟩ := chunks_spec k n hk r (h r (by simp))
    conv_lhs => rw [← h1]
    generalize chunks k r = cs at h3
    clear * - hk h3
    induction cs with
    | nil => simp
    | cons c cs ih =>
      rw [List.flatten_cons, List.append_assoc, chunks_append k hk c _ (h3 c (by simp)),
        ih fun c hc => h3 c (List.mem_cons_of_mem _ hc), List.cons_append]

/-- The parameter's conversion maps real vectors of its dimension to pdf-vectors of its width, and
all sizes are positive. -/
def SubParamOk (p : SubParam R) : Prop :=
  0 < p.dim ∧ 0 < p.npdfs ∧ 0 < p.pdfDim ∧ ∀ v, v.length = p.dim → (p.toPdf v).length = p.pdfDim

theorem pdfvecs_spec (rvecs : List (List R)) (ps : List (SubParam R)) (hps : ∀ p ∈ ps, SubParamOk p)
    (idx : ℕ) (h : ∀ r ∈ rvecs, r.length = idx + (ps.map fun p => p.dim * p.npdfs).sum) :
    ∀ pre p post, ps = pre ++ p :: post →
      (pdfvecs rvecs ps idx)[pre.length]? = some (rvecs.map fun row =>
        (chunks p.dim ((row.drop (idx + (pre.map fun p => p.dim * p.npdfs).sum)).take
          (p.dim * p.npdfs))).flatMap p.toPdf) := by
  induction ps generalizing idx with
  | nil => intro pre p post e; simp at e
  | cons q ps ih =>
    intro pre p post e
    cases pre with
    | nil =>
      rw [List.nil_append] at e
      obtain ⟨rfl, rfl⟩ := List.cons.inj e
      obtain ⟨hd, hn, hz, hf⟩ := hps q (by simp)
      unfold pdfvecs
      simp only [List.length_nil, List.getElem?_cons_zero, List.map_nil, List.sum_nil, add_zero,
        Option.some.injEq]
      have hsl : ∀ r ∈ rvecs.map (fun row => (row.take (idx + q.dim * q.npdfs)).drop idx),
          r.length = q.npdfs * q.dim := by
        intro r hr
        simp only [List.mem_map] at hr
        obtain ⟨row, hrow, rfl⟩ := hr
        have := h row hrow
        rw [List.map_cons, List.sum_cons] at this
        rw [List.length_drop, List.length_take, Nat.mul_comm q.npdfs]
        omega
      rw [chunks_rows q.dim q.npdfs hd _ hsl]
      have e1 : ((rvecs.map fun row => (row.take (idx + q.dim * q.npdfs)).drop idx).flatMap
          (chunks q.dim)).map q.toPdf = (rvecs.map fun row =>
            (chunks q.dim ((row.take (idx + q.dim * q.npdfs)).drop idx)).map q.toPdf).flatten := by
        clear h hsl ih
        induction rvecs with
        | nil => rfl
        | cons r rs ih => simp [List.flatMap_cons, ih]
      have e2 : ((rvecs.map fun row =>
            (chunks q.dim ((row.take (idx + q.dim * q.npdfs)).drop idx)).map q.toPdf).flatten).flatten
          = (rvecs.map fun row => (chunks q.dim ((row.take (idx + q.dim * q.npdfs)).drop
            idx)).flatMap q.toPdf).flatten := by
        clear h hsl ih e1
        induction rvecs with
        | nil => rfl
        | cons r rs ih => simp [List.flatMap_def, ih]
      rw [e1, e2, chunks_flatten _ (Nat.mul_pos hn hz)]
      · apply List.map_congr_left
        intro row _
        rw [List.drop_take, Nat.add_sub_cancel_left]
      · intro r hr
        simp only [List.mem_map] at hr
        obtain ⟨row, hrow, rfl⟩ := hr
        obtain ⟨-, c2, c3⟩ := chunks_spec q.dim q.npdfs hd _
          (hsl _ (List.mem_map.2 ⟨row, hrow, rfl⟩))
        generalize chunks q.dim ((row.take (idx + q.dim * q.npdfs)).drop idx) = cs at c2 c3
        rw [← c2]
        clear * - c3 hf
        induction cs with
        | nil => simp
        | cons c cs ih =>
          rw [List.flatMap_cons, List.length_append, hf c (c3 c (by simp)),
            ih fun c hc => c3 c (List.mem_cons_of_mem _ hc), List.length_cons]
          ring
    | cons q' pre =>
      rw [List.cons_append] at e
      obtain ⟨rfl, e'⟩ := List.cons.inj e
      unfold pdfvecs
      dsimp only
      rw [List.length_cons, List.getElem?_cons_succ, ih
        (fun p hp => hps p (List.mem_cons_of_mem _ hp)) (idx + q.dim * q.npdfs) (by
          intro r hr
          rw [h r hr, List.map_cons, List.sum_cons]
          omega) pre p post e', List.map_cons, List.sum_cons]
      simp only [← add_assoc]

/-- C67, reading: the pdf-vectors computed for a parameter from super-vectors (one per row) are, row by
row, the conversions of the blocks of its own slice of the row. -/
theorem C67_pdfvecs (rvecs : List (List R)) (pre post : List (SubParam R)) (p : SubParam R)
    (hps : ∀ q ∈ pre ++ p :: post, SubParamOk q)
    (h : ∀ r ∈ rvecs, r.length = ((pre ++ p :: post).map fun p => p.dim * p.npdfs).sum) :
    (pdfvecs rvecs (pre ++ p :: post) 0)[pre.length]? = some (rvecs.map fun row =>
      (chunks p.dim ((row.drop (pre.map fun p => p.dim * p.npdfs).sum).take
        (p.dim * p.npdfs))).flatMap p.toPdf) := by
  have := pdfvecs_spec rvecs (pre ++ p :: post) hps 0 (by simpa using h) pre p post rfl
  simpa using this

example : pdfvecs [[1, 2, 3, 4, 5]] [⟨2, 2, 3, fun v => v ++ [0], 6⟩, ⟨1, 1, 2, fun v => v ++ [9], 2⟩] 0
    = [[[1, 2, 0, 3, 4, 0]], [[5, 9]]] := by decide +kernel

theorem pdfvecs_length (rvecs : List (List R)) (ps : List (SubParam R)) (idx : ℕ) :
    (pdfvecs rvecs ps idx).length = ps.length := by
  induction ps generalizing idx with
  | nil => rfl
  | cons p ps ih => unfold pdfvecs; simp [ih]

/-- C67, end to end for one model: the vector obtained from the super-vector is cut so that every
parameter receives the conversion of its own slice of the super-vector. -/
theorem C67_own_slice (ps : List (SubParam R)) (hps : ∀ q ∈ ps, SubParamOk q)
    (hnum : ∀ q ∈ ps, q.numel = q.npdfs * q.pdfDim) (rvec : List R)
    (h : rvec.length = (ps.map fun p => p.dim * p.npdfs).sum) :
    ∃ out, updateParams (pdfvecsFromRvec ps rvec) ps 0 = .ok out ∧ out.length = ps.length ∧
      ∀ pre p post, ps = pre ++ p :: post → out[pre.length]? = some
        ((chunks p.dim ((rvec.drop (pre.map fun p => p.dim * p.npdfs).sum).take
          (p.dim * p.npdfs))).flatMap p.toPdf) := by
  -- the pieces, in order
  set pieces := (pdfvecs [rvec] ps 0).map fun rows => rows.headD [] with hpieces
  have hpiece : ∀ pre p post, ps = pre ++ p :: post → pieces[pre.length]? = some
        ((chunks p.dim ((rvec.drop (pre.map fun p => p.dim * p.npdfs).sum).take
          (p.dim * p.npdfs))).flatMap p.toPdf) := by
    intro pre p post e
    subst e
    rw [hpieces, List.getElem?_map, C67_pdfvecs [rvec] pre post p hps (by simpa using h)]
    rfl
  have hplen : pieces.length = ps.length := by rw [hpieces, List.length_map, pdfvecs_length]
  have hdef : pdfvecsFromRvec ps rvec = pieces.flatten := rfl
  clear_value pieces
  have hlens : pieces.map List.length = ps.map SubParam.numel := by
    apply List.ext_getElem (by simp [hplen])
    intro i hi hi'
    rw [List.length_map] at hi hi'
    rw [List.getElem_map, List.getElem_map]
    have hsplit : ps = ps.take i ++ ps[i] :: ps.drop (i + 1) := by
      rw [← List.drop_eq_getElem_cons hi', List.take_append_drop]
    have hg := hpiece _ _ _ hsplit
    rw [List.length_take, min_eq_left hi'.le, List.getElem?_eq_getElem hi, Option.some.injEq] at hg
    rw [hg, hnum _ (List.getElem_mem hi')]
    obtain ⟨hd, hn, hz, hf⟩ := hps _ (List.getElem_mem hi')
    have hsl : ((rvec.drop ((ps.take i).map fun p => p.dim * p.npdfs).sum).take
        (ps[i].dim * ps[i].npdfs)).length = ps[i].npdfs * ps[i].dim := by
      rw [List.length_take, List.length_drop, h]
      have e3 : (ps.map fun p => p.dim * p.npdfs).sum =
          ((ps.take i).map fun p => p.dim * p.npdfs).sum + (ps[i].dim * ps[i].npdfs +
            ((ps.drop (i + 1)).map fun p => p.dim * p.npdfs).sum) := by
        rw [← List.sum_cons, ← List.map_cons (f := fun p : SubParam R => p.dim * p.npdfs),
          ← List.drop_eq_getElem_cons hi', ← List.sum_append, ← List.map_append,
          List.take_append_drop]
      rw [e3, Nat.mul_comm ps[i].npdfs]
      omega
    obtain ⟨-, c2, c3⟩ := chunks_spec _ _ hd _ hsl
    generalize chunks ps[i].dim _ = cs at c2 c3
    rw [← c2]
    clear * - c3 hf
    induction cs with
    | nil => simp
    | cons c cs ih =>
      rw [List.flatMap_cons, List.length_append, hf c (c3 c (by simp)),
        ih fun c hc => c3 c (List.mem_cons_of_mem _ hc), List.length_cons]
      ring
  have htot : (pdfvecsFromRvec ps rvec).length = (ps.map SubParam.numel).sum := by
    rw [hdef, List.length_flatten, hlens]
  obtain ⟨out, h1, h2, h3⟩ := C67_update_params _ ps htot
  have hout : out = pieces := by
    have e : out.flatten = pieces.flatten := h2.trans hdef
    exact List.eq_iff_flatten_eq.2 ⟨e, by rw [h3, hlens]⟩
  refine ⟨out, h1, by rw [hout, hplen], ?_⟩
  rw [hout]
  exact hpiece

example : updateParams (pdfvecsFromRvec [⟨2, 2, 3, fun v => v ++ [0], 6⟩,
    ⟨1, 1, 2, fun v => v ++ [9], 2⟩] [1, 2, 3, 4, 5]) [⟨2, 2, 3, fun v => v ++ [0], 6⟩,
    ⟨1, 1, 2, fun v => v ++ [9], 2⟩] 0 = .ok [[1, 2, 0, 3, 4, 0], [5, 9]] := by decide +kernel

end

/-! ## C70 -/

theorem replaceChildren_spec (paramsmap : ℕ → Option Mod) : ∀ (cs : List (String × Mod)) (seen : List ℕ),
    AllModelsList cs →
    (cs.filterMap fun c => match c.2 with | .param i => some i | .node _ _ => none).Nodup →
    (∀ i ∈ seen, i ∉ cs.filterMap fun c => match c.2 with | .param i => some i | .node _ _ => none) →
    replaceChildren paramsmap cs seen = substAllList paramsmap cs
  | [], _, _, _, _ => by simp [replaceChildren, substAllList]
  | (name, .param i) :: cs, seen, h, hnd, hs => by
    simp only [AllModelsList] at h
    simp only [List.filterMap_cons] at hnd hs
    have hi : i ∉ seen := fun hmem => hs i hmem (by simp)
    rw [replaceChildren, if_neg hi, substAllList]
    have ih := replaceChildren_spec paramsmap cs (i :: seen) h.2 (List.nodup_cons.1 hnd).2 (by
      intro j hj
      rcases List.mem_cons.1 hj with rfl | hj
      · exact (List.nodup_cons.1 hnd).1
      · exact fun hmem => hs j hj (List.mem_cons_of_mem _ hmem))
    rcases hm : paramsmap i with _ | new
    · simp only [ih, substAll, hm, Option.getD_none]
    · simp only [ih, substAll, hm, Option.getD_some]
  | (name, .node b sub) :: cs, seen, h, hnd, hs => by
    simp only [AllModelsList, AllModels] at h
    obtain ⟨⟨rfl, hnd', hsub⟩, hcs⟩ := h
    simp only [List.filterMap_cons] at hnd hs
    rw [replaceChildren, replaceChildren_spec paramsmap sub [] hsub hnd' (by simp),
      replaceChildren_spec paramsmap cs seen hcs hnd hs, substAllList, substAll]

/-- C70 (partial): in a model tree made of models only (no `ModuleList` or other container on the way
to a parameter), where no module has the same parameter under two names, every parameter that is a key
is replaced and nothing else changes. -/
theorem C70_all_replaced_partial (paramsmap : ℕ → Option Mod) (cs : List (String × Mod))
    (h : AllModels (.node true cs)) :
    replaceParameters paramsmap (.node true cs) = substAll paramsmap (.node true cs) := by
  simp only [AllModels] at h
  rw [replaceParameters, substAll, replaceChildren_spec paramsmap cs [] h.2.2 h.2.1 (by simp)]

example : AllModels (.node true [("modelset", .node true [("means_precisions", .param 1)]),
    ("weights", .param 2)]) := by
  simp [AllModels, AllModelsList]

/-- C70, negation: the parameters of the members of a `JointModelSet` (held in a `ModuleList`) are not
replaced, whatever the map. -/
theorem C70_module_list_negation (paramsmap : ℕ → Option Mod) (members : List (String × Mod)) :
    replaceParameters paramsmap (.node true [("modelsets", .node false members)]) =
      .node true [("modelsets", .node false members)] := by
  simp [replaceParameters, replaceChildren]

example : (replaceParameters (fun i => if i = 1 then some (.param 7) else none)
    (.node true [("modelsets", .node false [("0", .node true [("means_precisions", .param 1)])])])).params
    = [1] := by
  simp [replaceParameters, replaceChildren, Mod.params, Mod.params.paramsList]

/-- C70, negation: a parameter that is present under two names of one module is replaced under the first
name only. -/
theorem C70_two_names_negation (i j : ℕ) (a b : String) :
    (replaceParameters (fun k => if k = i then some (.param j) else none)
      (.node true [(a, .param i), (b, .param i)])).params = [j, i] := by
  simp [replaceParameters, replaceChildren, Mod.params, Mod.params.paramsList]

end Verif.Props
