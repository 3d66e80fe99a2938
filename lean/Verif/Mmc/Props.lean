import Verif.Mmc.Model

/-! # C195: requests are answered from their own images -/

namespace Verif.Mmc

open Verif.PyRadix

variable {ι : Type}

/-- Every reused slot was computed for a prompt that has the same words up to there. -/
theorem reused_words (image : ℤ) (hist : List (Done ι)) (ops : List Op) (s : St) (h : Reach 1 ops s)
    (hs : Served image hist ops) (now : ℕ) (prompt : List (Content ι)) (n x : ℕ)
    (hx : (reused now image s.cache prompt)[n]? = some x) :
    ∃ d ∈ hist, d.2[n]? = some x ∧ n < prompt.length ∧
      ∀ j ≤ n, ∃ a b, prompt[j]? = some a ∧ d.1[j]? = some b ∧ ∀ id, id ≠ image → a = .word id → b = a := by
  unfold reused at hx
  dsimp only at hx
  rw [List.getElem?_take] at hx
  split_ifs at hx
  generalize hm : matchPrefix 1 now s.cache none (key image prompt) = r at hx
  obtain ⟨⟨sl, last⟩, c'⟩ := r
  have hle := (C36_match (by decide) h now none _ hm).1
  obtain ⟨now2, key2, val2, a, b, c⟩ := C36_match_origin (by decide) h now none _ hm n x hx
  obtain ⟨d, hd, -, rfl, rfl⟩ := hs _ _ _ _ a
  have hn : n < sl.length := (List.getElem?_eq_some_iff.1 hx).1
  have hlen : (key image prompt).length = prompt.length := by simp [key]
  refine ⟨d, hd, c, by omega, fun j hj => ?_⟩
  have hjp : j < prompt.length := by omega
  have e := congrArg (fun l => l[j]?) b
  simp only [List.getElem?_take, if_pos (show j < n + 1 by omega), key, List.getElem?_map,
    List.getElem?_eq_getElem hjp, Option.map_some] at e
  cases hdj : d.1[j]? with
  | none => rw [hdj] at e; simp at e
  | some y =>
    rw [hdj] at e
    simp only [Option.map_some, Option.some.injEq] at e
    refine ⟨prompt[j], y, List.getElem?_eq_getElem hjp, rfl, fun id hid ha => ?_⟩
    rw [ha] at e ⊢
    cases y with
    | word id' => simp only [Content.token] at e; rw [e]
    | piece p k => simp only [Content.token] at e; exact absurd e.symm hid

/-- C195, the part that holds, after any history of the cache: if the beginning of a prompt that is reused consists of
words only, then what is reused was computed for exactly that beginning, images and all. -/
theorem C195_words_partial (image : ℤ) (hist : List (Done ι)) (ops : List Op) (s : St) (h : Reach 1 ops s)
    (hs : Served image hist ops) (now : ℕ) (prompt : List (Content ι)) (n x : ℕ)
    (hx : (reused now image s.cache prompt)[n]? = some x)
    (hw : ∀ a ∈ prompt.take (n + 1), ∃ id, id ≠ image ∧ a = .word id) :
    ∃ d ∈ hist, d.2[n]? = some x ∧ d.1.take (n + 1) = prompt.take (n + 1) := by
  obtain ⟨d, hd, hdx, hn, hj⟩ := reused_words image hist ops s h hs now prompt n x hx
  refine ⟨d, hd, hdx, List.ext_getElem? fun j => ?_⟩
  simp only [List.getElem?_take]
  split_ifs with hjn
  · obtain ⟨a, b, ha, hb, hab⟩ := hj j (by omega)
    have hm : a ∈ prompt.take (n + 1) := by
      refine List.mem_iff_getElem?.mpr ⟨j, ?_⟩
      rw [List.getElem?_take, if_pos hjn, ha]
    obtain ⟨id, hid, e⟩ := hw a hm
    rw [ha, hb, hab id hid e]
  · rfl

/-- C195 fails for images: after one prompt has been served, another prompt with the same words and images of the same
size reuses the slots of the first for all but its last two positions, whatever the pixels are. -/
theorem C195_images_violated (image : ℤ) (c c' : List (Content ι)) (sl : Slots) (hl : sl.length = c.length)
    (hsame : key image c = key image c') (h2 : 2 ≤ c.length) (t1 t2 : ℕ) :
    ∃ s, Reach 1 [Op.insert t1 none (key image c) sl] s ∧ Served image [(c, sl)] [Op.insert t1 none (key image c) sl] ∧
      reused t2 image s.cache c' = sl.take (c.length - 2) := by
  have hk : (key image c).length = c.length := by simp [key]
  have hk' : c'.length = c.length := by
    have := congrArg List.length hsame
    simpa [key] using this.symm
  have hne : key image c ≠ [] := by intro e; rw [e] at hk; simp at hk; omega
  have hr : Reach 1 [Op.insert t1 none (key image c) sl]
      { (⟨.empty, []⟩ : St) with cache := (insert 1 t1 Cache.empty none (key image c) sl).2 } :=
    .step .init (.insert t1 none _ _ (by rw [hl, hk]) (one_dvd _))
  refine ⟨_, hr, ?_, ?_⟩
  · intro now e k val hm
    simp only [List.mem_singleton, Op.insert.injEq] at hm
    exact ⟨(c, sl), List.mem_singleton.mpr rfl, hm.2.1, hm.2.2.1, hm.2.2.2⟩
  · generalize hi : insert 1 t1 Cache.empty none (key image c) sl = r at hr
    obtain ⟨⟨n0, last0⟩, c1⟩ := r
    obtain ⟨-, -, old, hold, hol, hch, -, -⟩ := C36_insert (by decide) .init t1 none _ sl hne (by rw [hl, hk]) (one_dvd _) hi
    have hc := (hch none ((key image c).take c.length) ((old ++ sl.drop n0).take c.length)).mpr
      (Or.inr ⟨rfl, c.length, by omega, one_dvd _, rfl, rfl⟩)
    unfold reused
    dsimp only
    rw [← hsame]
    generalize hm : matchPrefix 1 t2 c1 none (key image c) = r2
    obtain ⟨⟨sl2, last2⟩, c2⟩ := r2
    obtain ⟨m1, -, -, m4, -⟩ := C36_match (by decide) hr t2 none _ hm
    have hlen : sl2.length = c.length := by
      have := m4 c.length _ (by omega) hc
      omega
    have hsl : sl2 = sl := by
      refine List.ext_getElem? fun n => ?_
      by_cases hn : n < sl2.length
      · obtain ⟨now, key', val, a, b, d⟩ := C36_match_origin (by decide) hr t2 none _ hm n _
          (List.getElem?_eq_getElem hn)
        simp only [List.mem_singleton, Op.insert.injEq] at a
        obtain ⟨-, -, -, rfl⟩ := a
        rw [List.getElem?_eq_getElem hn, d]
      · rw [List.getElem?_eq_none (by omega), List.getElem?_eq_none (by omega)]
    rw [hsl, hk', hl]
    congr 1
    unfold Verif.Vpos.usedPrefix
    rw [if_pos ⟨by omega, h2⟩]

/-- Two such prompts: the same question about two different images, three pieces each. -/
example : ∃ c c' : List (Content Bool), key 7 c = key 7 c' ∧ c.length = 7 ∧ c[1]? ≠ c'[1]? ∧ 1 < c.length - 2 :=
  ⟨[.word 1, .piece true 0, .piece true 1, .piece true 2, .word 2, .word 3, .word 4],
   [.word 1, .piece false 0, .piece false 1, .piece false 2, .word 2, .word 3, .word 4], rfl, rfl, by simp, by decide⟩

end Verif.Mmc
