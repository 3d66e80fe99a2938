import Verif.Ocr.Conv

/-!
# C171: prompts from conversations
-/

namespace Verif.Ocr.Conv

/-! ## Trimming -/

theorem dropWhile_head {p : Char → Bool} : ∀ (s : Str) c, (s.dropWhile p).head? = some c → p c = false
  | [], c, h => by simp at h
  | a :: s, c, h => by
    rw [List.dropWhile_cons] at h
    split at h
    · exact dropWhile_head s c h
    · rename_i hp
      simp only [List.head?_cons, Option.some.injEq] at h
      subst h
      simpa using hp

theorem dropWhile_split {p : Char → Bool} : ∀ s : Str, ∃ a, s = a ++ s.dropWhile p ∧ ∀ c ∈ a, p c = true
  | [] => ⟨[], by simp, by simp⟩
  | x :: s => by
    obtain ⟨a, e, ha⟩ := dropWhile_split (p := p) s
    rw [List.dropWhile_cons]
    split
    · rename_i hp
      exact ⟨x :: a, by rw [List.cons_append, ← e], by simpa [hp] using ha⟩
    · exact ⟨[], by simp, by simp⟩

/-- **C171.** Trimming removes white space at both ends, all of it, and nothing else. -/
theorem C171_trim (s : Str) : ∃ a b, s = a ++ trim s ++ b ∧ (∀ c ∈ a, white c = true) ∧ (∀ c ∈ b, white c = true) ∧
    (∀ c, (trim s).head? = some c → white c = false) ∧ (∀ c, (trim s).getLast? = some c → white c = false) := by
  obtain ⟨a, ea, ha⟩ := dropWhile_split (p := white) s
  obtain ⟨b, eb, hb⟩ := dropWhile_split (p := white) (s.dropWhile white).reverse
  have e2 : s.dropWhile white = trim s ++ b.reverse := by
    have := congrArg List.reverse eb
    rw [List.reverse_reverse, List.reverse_append] at this
    exact this
  refine ⟨a, b.reverse, by rw [List.append_assoc, ← e2]; exact ea, ha, by simpa using hb, ?_, ?_⟩
  · intro c hc
    apply dropWhile_head s c
    rw [e2, List.head?_append, hc]
    rfl
  · intro c hc
    apply dropWhile_head (p := white) (s.dropWhile white).reverse c
    rw [trim, List.getLast?_reverse] at hc
    exact hc

theorem trim_id {s : Str} (h1 : ∀ c, s.head? = some c → white c = false) (h2 : ∀ c, s.getLast? = some c → white c = false) : trim s = s := by
  have e1 : s.dropWhile white = s := by
    cases s with
    | nil => rfl
    | cons a s => rw [List.dropWhile_cons, h1 a rfl]; simp
  have e2 : s.reverse.dropWhile white = s.reverse := by
    cases h : s.reverse with
    | nil => rfl
    | cons a r =>
      have : s.getLast? = some a := by rw [← List.head?_reverse, h]; rfl
      rw [List.dropWhile_cons, h2 a this]
      simp
  rw [trim, e1, e2, List.reverse_reverse]

/-! ## Prompts -/

/-- **C171.** The plain template joins the trimmed contents. -/
theorem C171_plain (sys : Str) (ms : List (Str × Str)) : format plain sys ms = trim (ms.flatMap fun m => trim m.2) := by
  have body : ∀ (c : Conversation) (l : List (Str × Str)) i, c.style = .plain → c.sep = [] → c.sep2 = [] →
      c.body i l = l.flatMap fun m => m.2 := by
    intro c l
    induction l with
    | nil => intros; rfl
    | cons m l ih =>
      intro i h1 h2 h3
      rw [Conversation.body, ih _ h1 h2 h3, List.flatMap_cons, Conversation.message, h1]
      simp only [Conversation.sepAt, h2, h3, ite_self, List.append_nil]
      split_ifs with h
      · rfl
      · rw [not_not.mp h]
  rw [format, Conversation.prompt]
  simp only
  rw [body _ _ _ rfl rfl rfl]
  simp [plain, List.flatMap_map]

/-- A conversation of questions and answers that ends with an open question. -/
def dialogue (u a : Str) : List (Str × Str) → Str → List (Str × Str)
  | [], q => [(u, q), (a, [])]
  | t :: ts, q => (u, t.1) :: (a, t.2) :: dialogue u a ts q

/-- The text of such a conversation. -/
def rendered (u a : Str) (ts : List (Str × Str)) (q : Str) : Str :=
  (ts.flatMap fun t => u ++ ": ".toList ++ t.1 ++ "\n\n".toList ++ (a ++ ": ".toList ++ t.2 ++ eos)) ++
    (u ++ ": ".toList ++ q ++ "\n\n".toList ++ (a ++ ":".toList))

theorem body_dialogue (c : Conversation) (h1 : c.style = .deepSeek) (h2 : c.sep = "\n\n".toList) (h3 : c.sep2 = eos) (u a : Str) {q : Str} (hq : q ≠ []) :
    ∀ (ts : List (Str × Str)) i, i % 2 = 0 → (∀ t ∈ ts, t.1 ≠ [] ∧ t.2 ≠ []) → c.body i (dialogue u a ts q) = rendered u a ts q := by
  intro ts
  induction ts with
  | nil =>
    intro i hi _
    simp [dialogue, Conversation.body, Conversation.message, h1, hq, Conversation.sepAt, hi, h2, rendered]
  | cons t ts ih =>
    intro i hi ht
    have h := ht t List.mem_cons_self
    have hi1 : (i + 1) % 2 ≠ 0 := by omega
    rw [dialogue, Conversation.body, Conversation.body, ih (i + 1 + 1) (by omega) fun t h => ht t (List.mem_cons_of_mem _ h)]
    simp [Conversation.message, h1, h.1, h.2, Conversation.sepAt, hi, hi1, h2, h3, rendered]

theorem system_hole (c : Conversation) (h : c.systemTemplate = hole) : c.system = c.systemMessage := by
  have : Token.findSub hole hole = some 0 := by decide
  rw [Conversation.system, h, this]
  generalize hole = x
  simp

/-- **C171.** The DeepSeek template: the system message, if any, and an empty line; every question with its role, an
empty line, every answer with its role and the end-of-sentence marker; last the open question and the role that has to
answer; white space at the ends is removed. -/
theorem C171_deepseek (u a sys : Str) (ts : List (Str × Str)) {q : Str} (hq : trim q ≠ []) (ht : ∀ t ∈ ts, trim t.1 ≠ [] ∧ trim t.2 ≠ []) :
    format deepseek sys (dialogue u a ts q) =
      trim ((if sys ≠ [] then sys ++ "\n\n".toList else []) ++ rendered u a (ts.map fun t => (trim t.1, trim t.2)) (trim q)) := by
  have hm : ∀ ts : List (Str × Str), (dialogue u a ts q).map (fun m => (m.1, trim m.2)) = dialogue u a (ts.map fun t => (trim t.1, trim t.2)) (trim q) := by
    intro ts
    induction ts with
    | nil => simp [dialogue, trim]
    | cons t ts ih => simp [dialogue, ih]
  have hsys : ∀ ms, Conversation.system { deepseek with systemMessage := sys, messages := ms } = sys := by
    intro ms
    exact system_hole _ rfl
  rw [format, Conversation.prompt]
  simp only [hsys]
  rw [hm]
  congr 2
  apply body_dialogue
  · rfl
  · rfl
  · rfl
  · exact hq
  · rfl
  · intro t h
    simp only [List.mem_map] at h
    obtain ⟨t', h', rfl⟩ := h
    exact ht t' h'

/-- **C171.** The roles of the chat format: alternating, the user first; an open answer is left out. -/
theorem C171_openai (u a : Str) (ts : List (Str × Str)) (q : Str) (ht : ∀ t ∈ ts, t.2 ≠ []) :
    openAI 0 (dialogue u a ts q) =
      (ts.flatMap fun t => [("user".toList, t.1), ("assistant".toList, t.2)]) ++ [("user".toList, q)] := by
  have : ∀ (ts : List (Str × Str)) i, i % 2 = 0 → (∀ t ∈ ts, t.2 ≠ []) → openAI i (dialogue u a ts q) =
      (ts.flatMap fun t => [("user".toList, t.1), ("assistant".toList, t.2)]) ++ [("user".toList, q)] := by
    intro ts
    induction ts with
    | nil =>
      intro i hi _
      have hi1 : (i + 1) % 2 ≠ 0 := by omega
      simp [dialogue, openAI, hi, hi1]
    | cons t ts ih =>
      intro i hi ht
      have h := ht t List.mem_cons_self
      have hi1 : (i + 1) % 2 ≠ 0 := by omega
      rw [dialogue, openAI, openAI, ih (i + 1 + 1) (by omega) fun t h => ht t (List.mem_cons_of_mem _ h)]
      simp [hi, hi1, h]
  exact this ts 0 rfl ht

/-- **C171, violated.** The second template is registered with another user role than the one it looks for: a user's
question is rendered like an answer, closed by the end-of-sentence marker. -/
theorem C171_v2_violated (q : Str) : (deepseekv2).message 0 (v2User, q) = (deepseekv2).message 1 ("<｜Assistant｜>".toList, q) ∧
    (q ≠ [] → (deepseekv2).message 0 (v2User, q) = q ++ eos) := by
  have h1 : v2User ≠ "User".toList := by decide
  have h2 : "<｜Assistant｜>".toList ≠ "User".toList := by decide
  have key : ∀ (c : Conversation) i r, c.style = .deepSeekV2 → r ≠ "User".toList → c.message i (r, q) = if q ≠ [] then q ++ c.sep2 else [] := by
    intro c i r hs hr
    rw [Conversation.message, hs]
    simp only [if_neg hr]
  rw [key _ _ _ rfl h1, key _ _ _ rfl h2]
  exact ⟨rfl, fun hq => by rw [if_pos hq]; rfl⟩

/-! ## The registry -/

/-- **C171.** The first initialisation registers the four templates under their names. -/
theorem C171_initialize (debug : Bool) : ∃ r, initAll debug [] = some r ∧
    r.lookup "deepseek".toList = some deepseek ∧ r.lookup "deepseekv2".toList = some deepseekv2 ∧
    r.lookup "plain".toList = some plain ∧ r.lookup "alignment".toList = some alignment := by
  cases debug <;> exact ⟨_, rfl, rfl, rfl, rfl, rfl⟩

/-- **C171, violated.** Initialising again, as the second `infer` does, fails an assertion where these are compiled in. -/
theorem C171_initialize_again_violated {r : Registry} (h : initAll true [] = some r) : initAll true r = none := by
  obtain ⟨r', e, h1, -⟩ := C171_initialize true
  rw [e, Option.some.injEq] at h
  subst h
  have : register true r' deepseek = none := by
    rw [register, if_pos]
    refine ⟨rfl, ?_⟩
    rw [show deepseek.name = "deepseek".toList from rfl, h1]
    rfl
  simp only [initAll, List.foldlM_cons, this]
  rfl

/-- Non-vacuity: a dialogue with one answered question. -/
example : trim "next".toList ≠ [] ∧ (∀ t ∈ [("hi".toList, "yes ".toList)], trim t.1 ≠ [] ∧ trim t.2 ≠ []) ∧
    format deepseek [] (dialogue "U".toList "A".toList [("hi".toList, "yes ".toList)] "next".toList) =
      "U: hi\n\nA: yes<｜end▁of▁sentence｜>U: next\n\nA:".toList := by decide +kernel

end Verif.Ocr.Conv
