import Verif.PyRadix.Spec
namespace Verif.PyRadix

/-! ### `_key_match` -/

theorem dvd_sub_of {P n : Nat} (h : P ∣ n) : P ∣ n - P := Nat.dvd_sub h (Nat.dvd_refl P)

theorem ge_of_dvd {P : Nat} {a : Key} (h : P ∣ a.length) (ha : a ≠ []) : P ≤ a.length :=
  Nat.le_of_dvd (List.length_pos_iff.2 ha) h

theorem keyMatch_spec {P : Nat} (hP : 0 < P) : ∀ (fuel : Nat) (a b : Key), a.length ≤ fuel → P ∣ a.length → P ∣ b.length →
    P ∣ keyMatch P fuel a b ∧ keyMatch P fuel a b ≤ a.length ∧ keyMatch P fuel a b ≤ b.length ∧
    a.take (keyMatch P fuel a b) = b.take (keyMatch P fuel a b) ∧
    (keyMatch P fuel a b < a.length → keyMatch P fuel a b < b.length →
      (a.drop (keyMatch P fuel a b)).take P ≠ (b.drop (keyMatch P fuel a b)).take P) ∧
    (a ≠ [] → b ≠ [] → a.take P = b.take P → P ≤ keyMatch P fuel a b) := by
  intro fuel
  induction fuel with
  | zero =>
    intro a b ha _ _
    have : a = [] := List.length_eq_zero_iff.1 (by omega)
    subst this
    simp [keyMatch]
  | succ fuel ih =>
    intro a b ha h1 h2
    by_cases hn : a = [] ∨ b = []
    · have e : keyMatch P (fuel + 1) a b = 0 := by rw [keyMatch, if_pos hn]
      rw [e]
      refine ⟨Nat.dvd_zero P, Nat.zero_le _, Nat.zero_le _, by simp, ?_, ?_⟩
      · rcases hn with rfl | rfl <;> simp
      · rcases hn with rfl | rfl <;> simp
    · rw [not_or] at hn
      by_cases ht : a.take P ≠ b.take P
      · have e : keyMatch P (fuel + 1) a b = 0 := by rw [keyMatch, if_neg (by tauto), if_pos ht]
        rw [e]
        refine ⟨Nat.dvd_zero P, Nat.zero_le _, Nat.zero_le _, by simp, ?_, ?_⟩
        · intro _ _; simpa using ht
        · intro _ _ h; exact absurd h ht
      · have ht' : a.take P = b.take P := not_not.1 ht
        have e : keyMatch P (fuel + 1) a b = P + keyMatch P fuel (a.drop P) (b.drop P) := by
          rw [keyMatch, if_neg (by tauto), if_neg ht]
        have la := ge_of_dvd h1 hn.1
        have lb := ge_of_dvd h2 hn.2
        obtain ⟨i1, i2, i3, i4, i5, i6⟩ := ih (a.drop P) (b.drop P) (by rw [List.length_drop]; omega)
          (by rw [List.length_drop]; exact dvd_sub_of h1) (by rw [List.length_drop]; exact dvd_sub_of h2)
        rw [List.length_drop] at i2 i3 i5
        rw [List.length_drop] at i5
        rw [e]
        refine ⟨Nat.dvd_add (Nat.dvd_refl P) i1, by omega, by omega, ?_, ?_, ?_⟩
        · rw [List.take_add, List.take_add, ht', i4]
        · intro q1 q2
          have := i5 (by omega) (by omega)
          simpa [List.drop_drop] using this
        · intro _ _ _; omega

structure KM (P : Nat) (a b : Key) (m : Nat) : Prop where
  dvd : P ∣ m
  lea : m ≤ a.length
  leb : m ≤ b.length
  eq : a.take m = b.take m
  max : m < a.length → m < b.length → (a.drop m).take P ≠ (b.drop m).take P
  pos : a ≠ [] → b ≠ [] → a.take P = b.take P → P ≤ m

theorem kmatch_spec {P : Nat} (hP : 0 < P) {a b : Key} (ha : P ∣ a.length) (hb : P ∣ b.length) : KM P a b (kmatch P a b) := by
  obtain ⟨h1, h2, h3, h4, h5, h6⟩ := keyMatch_spec hP a.length a b (Nat.le_refl _) ha hb
  exact ⟨h1, h2, h3, h4, h5, h6⟩

/-! ### `Cached` -/

theorem cached_nil_nil (P : Nat) : ∀ (f : Forest) (e : Ext), Cached P f e [] []
  | .nil, _ => ⟨rfl, rfl⟩
  | .node _ _ _ _ _ _ _ rest, e => .inl (cached_nil_nil P rest e)

theorem cached_len {P : Nat} : ∀ {f : Forest}, WF P f → ∀ {e : Ext} {k : Key} {s : Slots}, Cached P f e k s →
    P ∣ k.length ∧ s.length = k.length := by
  intro f
  induction f with
  | nil => rintro _ e k s ⟨rfl, rfl⟩; simp
  | node i k x v l t kids rest ihk ihr =>
    intro hw e key s h
    obtain ⟨h1, h2, h3, h4, h5, h6⟩ := hw
    rcases h with h | ⟨_, ⟨n, hn, hd, rfl, rfl⟩ | ⟨key', s', rfl, rfl, h⟩⟩
    · exact ihr h6 h
    · rw [List.length_take, List.length_take, h3, Nat.min_eq_left hn]
      exact ⟨hd, rfl⟩
    · obtain ⟨a, b⟩ := ihk h5 h
      rw [List.length_append, List.length_append, h3, b]
      exact ⟨Nat.dvd_add h2 a, rfl⟩

theorem cached_nil_eq {P : Nat} {f : Forest} (hw : WF P f) {e : Ext} {s : Slots} (h : Cached P f e [] s) : s = [] := by
  have := (cached_len hw h).2
  exact List.length_eq_zero_iff.1 (by simpa using this)

theorem take_page {P : Nat} {k : Key} {n : Nat} (hd : P ∣ n) (hn : n ≠ 0) : (k.take n).take P = k.take P := by
  have : P ≤ n := Nat.le_of_dvd (by omega) hd
  rw [List.take_take, Nat.min_eq_left this]

theorem append_page {P : Nat} {k r : Key} (h : P ≤ k.length) : (k ++ r).take P = k.take P := by
  rw [List.take_append_of_le_length h]

theorem cached_noHead {P : Nat} : ∀ {f : Forest}, WF P f → ∀ {e : Ext} {k : Key} {s : Slots}, k ≠ [] →
    NoHead P e (k.take P) f → ¬ Cached P f e k s := by
  intro f
  induction f with
  | nil => rintro _ e k s hk _ ⟨rfl, _⟩; exact hk rfl
  | node i k x v l t kids rest ihk ihr =>
    intro hw e key s hk hn h
    obtain ⟨h1, h2, h3, h4, h5, h6⟩ := hw
    have hge := ge_of_dvd h2 h1
    rcases h with h | ⟨hx, ⟨n, hn', hd, rfl, rfl⟩ | ⟨key', s', rfl, rfl, h⟩⟩
    · exact ihr h6 hk hn.2 h
    · have : n ≠ 0 := by rintro rfl; simp at hk
      exact hn.1 ⟨hx, (take_page hd this).symm⟩
    · exact hn.1 ⟨hx, (append_page hge).symm⟩

/-- At a node whose first page is that of the key, the key is cached through this node or not at all. -/
theorem cached_here {P : Nat} {i k x v l t kids rest} (hw : WF P (.node i k x v l t kids rest)) {e : Ext} {key : Key}
    {s : Slots} (hk : key ≠ []) (hx : x = e) (ht : k.take P = key.take P) :
    Cached P (.node i k x v l t kids rest) e key s ↔
      ((∃ n, n ≤ k.length ∧ P ∣ n ∧ key = k.take n ∧ s = v.take n) ∨
      ∃ key' s', key = k ++ key' ∧ s = v ++ s' ∧ Cached P kids e key' s') := by
  obtain ⟨h1, h2, h3, h4, h5, h6⟩ := hw
  constructor
  · rintro (h | ⟨_, h⟩)
    · subst hx; rw [ht] at h4
      exact absurd h (cached_noHead h6 hk h4)
    · exact h
  · intro h; exact .inr ⟨hx, h⟩

theorem cached_skip {P : Nat} {i k x v l t kids rest} (hw : WF P (.node i k x v l t kids rest)) {e : Ext} {key : Key}
    {s : Slots} (hk : key ≠ []) (hx : ¬ (x = e ∧ k.take P = key.take P)) :
    Cached P (.node i k x v l t kids rest) e key s ↔ Cached P rest e key s := by
  obtain ⟨h1, h2, h3, h4, h5, h6⟩ := hw
  constructor
  · rintro (h | ⟨hxe, ⟨n, hn', hd, rfl, rfl⟩ | ⟨key', s', rfl, rfl, h⟩⟩)
    · exact h
    · have : n ≠ 0 := by rintro rfl; simp at hk
      exact absurd ⟨hxe, (take_page hd this).symm⟩ hx
    · exact absurd ⟨hxe, (append_page (ge_of_dvd h2 h1)).symm⟩ hx
  · exact .inl

/-- A cached sequence has one list of slots. -/
theorem cached_unique {P : Nat} : ∀ {f : Forest}, WF P f → ∀ {e : Ext} {k : Key} {s s' : Slots},
    Cached P f e k s → Cached P f e k s' → s = s' := by
  intro f
  induction f with
  | nil => rintro _ e k s s' ⟨_, rfl⟩ ⟨_, rfl⟩; rfl
  | node i k x v l t kids rest ihk ihr =>
    intro hw e key s s' h h'
    by_cases hk : key = []
    · subst hk; rw [cached_nil_eq hw h, cached_nil_eq hw h']
    · by_cases hx : x = e ∧ k.take P = key.take P
      · rw [cached_here hw hk hx.1 hx.2] at h h'
        obtain ⟨h1, h2, h3, h4, h5, h6⟩ := hw
        rcases h with ⟨n, hn, hd, rfl, rfl⟩ | ⟨key', s1, rfl, rfl, h⟩
        · rcases h' with ⟨m, hm, hd', e', rfl⟩ | ⟨key', s2, e', rfl, h'⟩
          · have := congrArg List.length e'
            rw [List.length_take, List.length_take, Nat.min_eq_left hn, Nat.min_eq_left hm] at this
            rw [this]
          · have hl := congrArg List.length e'
            rw [List.length_take, List.length_append, Nat.min_eq_left hn] at hl
            have : key' = [] := List.length_eq_zero_iff.1 (by omega)
            subst this
            rw [cached_nil_eq h5 h', List.append_nil, List.take_of_length_le (by simp at hl; omega)]
        · rcases h' with ⟨m, hm, hd', e', rfl⟩ | ⟨key2, s2, e', rfl, h'⟩
          · have hl := congrArg List.length e'
            rw [List.length_take, List.length_append, Nat.min_eq_left hm] at hl
            have : key' = [] := List.length_eq_zero_iff.1 (by omega)
            subst this
            rw [cached_nil_eq h5 h, List.append_nil, List.take_of_length_le (by simp at hl; omega)]
          · have := List.append_cancel_left e'
            subst this
            rw [ihk h5 h h']
      · rw [cached_skip hw hk hx] at h h'
        exact ihr hw.2.2.2.2.2 h h'

/-- Whole-page prefixes of what is cached are cached. -/
theorem cached_take {P : Nat} : ∀ {f : Forest}, WF P f → ∀ {e : Ext} {k : Key} {s : Slots} (n : Nat),
    Cached P f e k s → n ≤ k.length → P ∣ n → Cached P f e (k.take n) (s.take n) := by
  intro f
  induction f with
  | nil => rintro _ e k s n ⟨rfl, rfl⟩ _ _; simp [Cached]
  | node i k x v l t kids rest ihk ihr =>
    intro hw e key s n h hn hd
    obtain ⟨h1, h2, h3, h4, h5, h6⟩ := hw
    rcases h with h | ⟨hxe, ⟨m, hm, hdm, rfl, rfl⟩ | ⟨key', s', rfl, rfl, h⟩⟩
    · exact .inl (ihr h6 n h hn hd)
    · rw [List.length_take, Nat.min_eq_left hm] at hn
      refine .inr ⟨hxe, .inl ⟨n, by omega, hd, ?_, ?_⟩⟩
      · rw [List.take_take, Nat.min_eq_left hn]
      · rw [List.take_take, Nat.min_eq_left hn]
    · rw [List.length_append] at hn
      by_cases hle : n ≤ k.length
      · refine .inr ⟨hxe, .inl ⟨n, hle, hd, ?_, ?_⟩⟩
        · rw [List.take_append_of_le_length hle]
        · rw [List.take_append_of_le_length (by omega)]
      · refine .inr ⟨hxe, .inr ⟨key'.take (n - k.length), s'.take (n - k.length), ?_, ?_, ?_⟩⟩
        · rw [List.take_append, List.take_of_length_le (by omega)]
        · rw [List.take_append, List.take_of_length_le (by omega), h3]
        · exact ihk h5 _ h (by omega) (Nat.dvd_sub hd h2)

/-! ### Trees that differ by a split or by times -/

/-- Splitting a node does not change what is cached. -/
theorem cached_split {P : Nat} {i i' k x v l l' t t' u' kids rest} (hw : WF P (.node i k x v l t kids rest)) {n : Nat} (hd : P ∣ n)
    (hn : n < k.length) (e : Ext) (key : Key) (s : Slots) :
    Cached P (.node i' (k.take n) x (v.take n) l' t' (.node i (k.drop n) x (v.drop n) l u' kids .nil) rest) e key s ↔
      Cached P (.node i k x v l t kids rest) e key s := by
  obtain ⟨h1, h2, h3, h4, h5, h6⟩ := hw
  have lk : (k.take n).length = n := by rw [List.length_take]; omega
  have lv : (v.take n).length = n := by rw [List.length_take]; omega
  have ek : k.take n ++ k.drop n = k := List.take_append_drop n k
  have ev : v.take n ++ v.drop n = v := List.take_append_drop n v
  constructor
  · rintro (h | ⟨hxe, ⟨m, hm, hdm, rfl, rfl⟩ | ⟨key', s', rfl, rfl, h⟩⟩)
    · exact .inl h
    · rw [lk] at hm
      refine .inr ⟨hxe, .inl ⟨m, by omega, hdm, ?_, ?_⟩⟩
      · rw [List.take_take, Nat.min_eq_left hm]
      · rw [List.take_take, Nat.min_eq_left hm]
    · rcases h with ⟨rfl, rfl⟩ | ⟨_, ⟨m, hm, hdm, rfl, rfl⟩ | ⟨key2, s2, rfl, rfl, h⟩⟩
      · rw [List.append_nil, List.append_nil]
        exact .inr ⟨hxe, .inl ⟨n, by omega, hd, rfl, rfl⟩⟩
      · rw [List.length_drop] at hm
        refine .inr ⟨hxe, .inl ⟨n + m, by omega, Nat.dvd_add hd hdm, ?_, ?_⟩⟩
        · rw [List.take_add]
        · rw [List.take_add]
      · refine .inr ⟨hxe, .inr ⟨key2, s2, ?_, ?_, h⟩⟩
        · rw [← List.append_assoc, ek]
        · rw [← List.append_assoc, ev]
  · rintro (h | ⟨hxe, ⟨m, hm, hdm, rfl, rfl⟩ | ⟨key', s', rfl, rfl, h⟩⟩)
    · exact .inl h
    · by_cases hle : m ≤ n
      · refine .inr ⟨hxe, .inl ⟨m, by omega, hdm, ?_, ?_⟩⟩
        · rw [List.take_take, Nat.min_eq_left hle]
        · rw [List.take_take, Nat.min_eq_left hle]
      · refine .inr ⟨hxe, .inr ⟨(k.drop n).take (m - n), (v.drop n).take (m - n), ?_, ?_, .inr ⟨hxe, .inl ⟨m - n, ?_, ?_, rfl, rfl⟩⟩⟩⟩
        · rw [← List.take_add]; congr 1; omega
        · rw [← List.take_add]; congr 1; omega
        · rw [List.length_drop]; omega
        · exact Nat.dvd_sub hdm hd
    · refine .inr ⟨hxe, .inr ⟨k.drop n ++ key', v.drop n ++ s', ?_, ?_, .inr ⟨hxe, .inr ⟨key', s', rfl, rfl, h⟩⟩⟩⟩
      · rw [← List.append_assoc, ek]
      · rw [← List.append_assoc, ev]

theorem cached_congr {P : Nat} {i k x v l l' t t' kids kids' rest rest'} (h1 : ∀ e key s, Cached P kids' e key s ↔ Cached P kids e key s)
    (h2 : ∀ e key s, Cached P rest' e key s ↔ Cached P rest e key s) (e : Ext) (key : Key) (s : Slots) :
    Cached P (.node i k x v l' t' kids' rest') e key s ↔ Cached P (.node i k x v l t kids rest) e key s := by
  simp only [Cached, h1, h2]

/-! ### The match walk -/

theorem noHead_match {P : Nat} (hP : 0 < P) {e : Ext} {now fresh : Nat} : ∀ {f : Forest}, WF P f → ∀ {key : Key}, P ∣ key.length →
    ∀ {e' : Ext} {pg : Key}, NoHead P e' pg f → NoHead P e' pg (matchWalk P e now fresh f key).tree := by
  intro f
  induction f with
  | nil => intro _ key _ e' pg _; exact True.intro
  | node i k x v l t kids rest ihk ihr =>
    intro hw key hk e' pg h
    obtain ⟨h1, h2, h3, h4, h5, h6⟩ := hw
    rw [matchWalk]
    by_cases c1 : key = []
    · rw [if_pos c1]; exact h
    · rw [if_neg c1]
      by_cases c2 : x = e ∧ k.take P = key.take P
      · rw [if_pos c2]
        have km := kmatch_spec hP h2 hk
        by_cases c3 : kmatch P k key < k.length
        · rw [if_pos c3]
          refine ⟨?_, h.2⟩
          have hp := km.pos h1 c1 c2.2
          rw [List.take_take, Nat.min_eq_left hp]
          exact h.1
        · rw [if_neg c3]; exact ⟨h.1, h.2⟩
      · rw [if_neg c2]; exact ⟨h.1, ihr h6 hk h.2⟩

theorem wf_match {P : Nat} (hP : 0 < P) {e : Ext} {now fresh : Nat} : ∀ {f : Forest}, WF P f → ∀ {key : Key}, P ∣ key.length →
    WF P (matchWalk P e now fresh f key).tree := by
  intro f
  induction f with
  | nil => intro _ key _; exact True.intro
  | node i k x v l t kids rest ihk ihr =>
    intro hw key hk
    have hw' := hw
    obtain ⟨h1, h2, h3, h4, h5, h6⟩ := hw
    rw [matchWalk]
    by_cases c1 : key = []
    · rw [if_pos c1]; exact hw'
    · rw [if_neg c1]
      by_cases c2 : x = e ∧ k.take P = key.take P
      · rw [if_pos c2]
        have km := kmatch_spec hP h2 hk
        have hp := km.pos h1 c1 c2.2
        by_cases c3 : kmatch P k key < k.length
        · rw [if_pos c3]
          have l1 : (k.take (kmatch P k key)).length = kmatch P k key := by rw [List.length_take]; omega
          refine ⟨?_, by rw [l1]; exact km.dvd, ?_, ?_, ⟨?_, ?_, ?_, True.intro, h5, True.intro⟩, h6⟩
          · intro h; rw [h] at l1; simp at l1; omega
          · rw [List.length_take, List.length_take]; omega
          · rw [List.take_take, Nat.min_eq_left hp]; exact h4
          · intro h
            have := congrArg List.length h
            rw [List.length_drop] at this; simp at this; omega
          · rw [List.length_drop]; exact Nat.dvd_sub h2 km.dvd
          · rw [List.length_drop, List.length_drop]; omega
        · rw [if_neg c3]
          exact ⟨h1, h2, h3, h4, ihk h5 (by rw [List.length_drop]; exact Nat.dvd_sub hk km.dvd), h6⟩
      · rw [if_neg c2]
        exact ⟨h1, h2, h3, noHead_match hP h6 hk h4, h5, ihr h6 hk⟩

/-- A match does not change what is cached. -/
theorem cached_match {P : Nat} (hP : 0 < P) {e : Ext} {now fresh : Nat} : ∀ {f : Forest}, WF P f → ∀ {key : Key}, P ∣ key.length →
    ∀ e' k' s', Cached P (matchWalk P e now fresh f key).tree e' k' s' ↔ Cached P f e' k' s' := by
  intro f
  induction f with
  | nil => intro _ key _ e' k' s'; rfl
  | node i k x v l t kids rest ihk ihr =>
    intro hw key hk
    have hw' := hw
    obtain ⟨h1, h2, h3, h4, h5, h6⟩ := hw
    rw [matchWalk]
    by_cases c1 : key = []
    · rw [if_pos c1]; intro e' k' s'; rfl
    · rw [if_neg c1]
      by_cases c2 : x = e ∧ k.take P = key.take P
      · rw [if_pos c2]
        have km := kmatch_spec hP h2 hk
        by_cases c3 : kmatch P k key < k.length
        · rw [if_pos c3]; exact cached_split hw' km.dvd c3
        · rw [if_neg c3]
          exact cached_congr (ihk h5 (by rw [List.length_drop]; exact Nat.dvd_sub hk km.dvd)) (fun _ _ _ => Iff.rfl)
      · rw [if_neg c2]
        exact cached_congr (fun _ _ _ => Iff.rfl) (ihr h6 hk)

/-- The walk returns the slots of the longest cached whole-page prefix. -/
theorem match_longest {P : Nat} (hP : 0 < P) {e : Ext} {now fresh : Nat} : ∀ {f : Forest}, WF P f → ∀ {key : Key}, P ∣ key.length →
    ∀ {s : Slots}, s = (matchWalk P e now fresh f key).vals.flatten →
    s.length ≤ key.length ∧ Cached P f e (key.take s.length) s ∧
    ∀ n s2, n ≤ key.length → Cached P f e (key.take n) s2 → n ≤ s.length := by
  intro f
  induction f with
  | nil =>
    rintro _ key _ s rfl
    refine ⟨by simp [matchWalk], by simp [matchWalk, Cached], ?_⟩
    rintro n s2 hn ⟨h1, _⟩
    have := congrArg List.length h1
    rw [List.length_take] at this
    simp at this
    rcases this with rfl | rfl
    · simp
    · simp at hn; omega
  | node i k x v l t kids rest ihk ihr =>
    intro hw key hk s hs
    have hw' := hw
    obtain ⟨h1, h2, h3, h4, h5, h6⟩ := hw
    rw [matchWalk] at hs
    by_cases c1 : key = []
    · rw [if_pos c1] at hs
      subst hs; subst c1
      refine ⟨by simp, by simpa using cached_nil_nil P _ e, ?_⟩
      intro n s2 hn _; simpa using hn
    · rw [if_neg c1] at hs
      -- a cached prefix of the key is empty or begins with its first page
      have hpg : ∀ n s2, n ≤ key.length → Cached P (.node i k x v l t kids rest) e (key.take n) s2 → n = 0 ∨
          (key.take n ≠ [] ∧ (key.take n).take P = key.take P) := by
        intro n s2 hn h
        by_cases h0 : n = 0
        · exact .inl h0
        · have hl := (cached_len hw' h).1
          rw [List.length_take, Nat.min_eq_left hn] at hl
          refine .inr ⟨?_, take_page hl h0⟩
          intro hh
          have := congrArg List.length hh
          rw [List.length_take, Nat.min_eq_left hn] at this
          exact h0 (by simpa using this)
      by_cases c2 : x = e ∧ k.take P = key.take P
      · rw [if_pos c2] at hs
        obtain ⟨hx, ht⟩ := c2
        have km := kmatch_spec hP h2 hk
        have hp := km.pos h1 c1 ht
        by_cases c3 : kmatch P k key < k.length
        · rw [if_pos c3] at hs
          have hs : s = v.take (kmatch P k key) := by simpa using hs
          have ls : s.length = kmatch P k key := by rw [hs, List.length_take]; omega
          rw [ls]
          refine ⟨km.leb, .inr ⟨hx, .inl ⟨_, by omega, km.dvd, km.eq.symm, hs⟩⟩, ?_⟩
          intro n s2 hn h
          rcases hpg n s2 hn h with rfl | ⟨hne, hpage⟩
          · omega
          · rw [cached_here hw' hne hx (ht.trans hpage.symm)] at h
            by_contra hlt
            have hdn : P ∣ n := by
              have h7 : Cached P (.node i k x v l t kids rest) e (key.take n) s2 := .inr ⟨hx, h⟩
              have := (cached_len hw' h7).1
              rwa [List.length_take, Nat.min_eq_left hn] at this
            -- both agree on the page after the match
            have hge : kmatch P k key + P ≤ n := by
              have := Nat.le_of_dvd (by omega) (Nat.dvd_sub hdn km.dvd)
              omega
            have agree : (key.take n).take k.length = k.take n := by
              rcases h with ⟨m, hm, _, e1, _⟩ | ⟨key', s', e1, _, _⟩
              · have := congrArg List.length e1
                rw [List.length_take, List.length_take, Nat.min_eq_left hn, Nat.min_eq_left hm] at this
                subst this
                rw [e1, List.take_take, Nat.min_eq_right hm]
              · have := congrArg List.length e1
                rw [List.length_take, List.length_append, Nat.min_eq_left hn] at this
                rw [e1, List.take_left, List.take_of_length_le (by omega)]
            have hkl : kmatch P k key + P ≤ k.length := by
              have := Nat.le_of_dvd (by omega) (Nat.dvd_sub h2 km.dvd)
              omega
            refine km.max c3 (by omega) ?_
            have e2 : key.take (kmatch P k key + P) = k.take (kmatch P k key + P) := by
              have := congrArg (List.take (kmatch P k key + P)) agree
              have r1 : ((key.take n).take k.length).take (kmatch P k key + P) = key.take (kmatch P k key + P) := by
                rw [List.take_take, List.take_take, Nat.min_eq_left hkl, Nat.min_eq_left hge]
              have r2 : (k.take n).take (kmatch P k key + P) = k.take (kmatch P k key + P) := by
                rw [List.take_take, Nat.min_eq_left hge]
              exact r1.symm.trans (this.trans r2)
            have e3 := congrArg (List.drop (kmatch P k key)) e2
            rw [List.drop_take, List.drop_take] at e3
            simpa using e3.symm
        · rw [if_neg c3] at hs
          have hm : kmatch P k key = k.length := by have := km.lea; omega
          have hkey : key = k ++ key.drop (kmatch P k key) := by
            have e1 := km.eq
            rw [hm, List.take_length] at e1
            rw [hm]
            conv_lhs => rw [← List.take_append_drop k.length key, ← e1]
          have hd2 : P ∣ (key.drop (kmatch P k key)).length := by rw [List.length_drop]; exact Nat.dvd_sub hk km.dvd
          obtain ⟨i1, i2, i3⟩ := ihk h5 hd2 rfl
          have hs : s = v ++ (matchWalk P e now fresh kids (key.drop (kmatch P k key))).vals.flatten := by
            simpa using hs
          generalize hs2 : (matchWalk P e now fresh kids (key.drop (kmatch P k key))).vals.flatten = s2 at *
          have ls : s.length = k.length + s2.length := by rw [hs, List.length_append, h3]
          rw [List.length_drop, hm] at i1
          have hkl : k.length ≤ key.length := by have := km.leb; omega
          refine ⟨by omega, .inr ⟨hx, .inr ⟨(key.drop (kmatch P k key)).take s2.length, s2, ?_, hs, i2⟩⟩, ?_⟩
          · rw [ls]
            conv_lhs => rw [hkey]
            rw [List.take_append, List.take_of_length_le (by omega)]
            congr 2
            omega
          · intro n s3 hn h
            rcases hpg n s3 hn h with rfl | ⟨hne, hpage⟩
            · omega
            · rw [cached_here hw' hne hx (ht.trans hpage.symm)] at h
              rcases h with ⟨m, hm2, _, e1, _⟩ | ⟨key', s', e1, _, h7⟩
              · have := congrArg List.length e1
                rw [List.length_take, List.length_take, Nat.min_eq_left hn, Nat.min_eq_left hm2] at this
                omega
              · have el := congrArg List.length e1
                rw [List.length_take, List.length_append, Nat.min_eq_left hn] at el
                have ek : key' = (key.drop (kmatch P k key)).take key'.length := by
                  have e2 := e1
                  rw [hkey, List.take_append, List.take_of_length_le (by omega)] at e2
                  have e3 := List.append_cancel_left e2
                  rw [show n - k.length = key'.length by omega] at e3
                  exact e3.symm
                rw [ek] at h7
                have := i3 key'.length s' (by rw [List.length_drop, hm]; omega) h7
                omega
      · rw [if_neg c2] at hs
        obtain ⟨i1, i2, i3⟩ := ihr h6 hk hs
        refine ⟨i1, .inl i2, ?_⟩
        intro n s2 hn h
        rcases hpg n s2 hn h with rfl | ⟨hne, hpage⟩
        · omega
        · rw [cached_skip hw' hne (by rw [hpage]; exact c2)] at h
          exact i3 n s2 hn h

end Verif.PyRadix
