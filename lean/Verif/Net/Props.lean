import Verif.Net.Model
/-!
# Properties of URLs and connections
-/
namespace Verif.Net
open Verif.JString

/-- C188: a copy of a URL has all its parts, and its text puts them together: protocol, host, port if
there is one, path unless it is "/", query. -/
theorem C188_copy_partial (u : Url) {p : Int} (h : u.port = some p) : u.copy = .ok u ∧ u.getPort = .ok p ∧
    u.text = .ok (cstr (u.protocol ++ txt "://" ++ u.host ++ (if 0 ≤ p then txt ":" ++ decimal p else []) ++
      (if u.path = txt "/" then [] else u.path) ++ (if u.query = [] then [] else txt "?" ++ u.query))) := by
  obtain ⟨a, b, p', c, d⟩ := u
  simp only at h
  subst h
  refine ⟨rfl, rfl, ?_⟩
  have e1 : (p > -1) = (0 ≤ p) := propext (by omega)
  simp only [Url.text, e1]
  by_cases h1 : 0 ≤ p <;> by_cases h2 : c = txt "/" <;> by_cases h3 : d = [] <;>
    simp [h1, h2, h3]

example : (⟨txt "http", txt "a.b", some 80, txt "/c", txt "d=e"⟩ : Url).text = .ok (txt "http://a.b:80/c?d=e") := by
  decide +kernel

/-- C188 fails: a URL made from a text, whatever the text, has no protocol, host, path and query, and
asking for its port or its text, or copying it, is undefined. -/
theorem C188_parse_wrong (spec : Str) : (Url.ofText spec).protocol = [] ∧ (Url.ofText spec).host = [] ∧
    (Url.ofText spec).path = [] ∧ (Url.ofText spec).query = [] ∧ (Url.ofText spec).getPort = .ub ∧
    (Url.ofText spec).text = .ub ∧ (Url.ofText spec).copy = .ub :=
  ⟨rfl, rfl, rfl, rfl, rfl, rfl, rfl⟩

/-- C189: after any assignments a connection that came to be gives, for each setting, the last value
assigned to it, and the values from the start for those never assigned: input, no output. -/
theorem C189_settings_partial (u : Url) (c : Conn) (h : Conn.ofUrl u = .ok c) (l : List (Setting × Int))
    (s : Setting) : c.url = u ∧
      (∀ v, (l.filter fun a => a.1 = s).getLast? = some (s, v) → (c.run l).get s = .ok v) ∧
      ((∀ a ∈ l, a.1 ≠ s) → (s = .doInput → (c.run l).get s = .ok 1) ∧ (s = .doOutput → (c.run l).get s = .ok 0)) := by
  have hc : c.url = u ∧ c.value = initial := by
    unfold Conn.ofUrl at h
    cases hp : u.port with
    | none => simp [Url.copy, hp] at h
    | some p =>
      rw [(C188_copy_partial u hp).1, Outcome.bind_ok, (C188_copy_partial u hp).1, Outcome.bind_ok] at h
      cases h
      exact ⟨rfl, rfl⟩
  have key : ∀ (l : List (Setting × Int)) (c : Conn),
      (c.run l).value s = match (l.filter fun a => a.1 = s).getLast? with
        | some a => some a.2
        | none => c.value s := by
    intro l
    induction l with
    | nil => intro c; rfl
    | cons a l ih =>
      intro c
      obtain ⟨s', v⟩ := a
      simp only [Conn.run]
      rw [ih]
      by_cases hs : s' = s
      · subst hs
        rw [List.filter_cons_of_pos (by simp), List.getLast?_cons]
        cases hl : (l.filter fun a => decide (a.1 = s')).getLast? with
        | none => simp [Conn.set]
        | some a => simp
      · rw [List.filter_cons_of_neg (by simpa using hs)]
        cases hl : (l.filter fun a => decide (a.1 = s)).getLast? with
        | none => simp only [Conn.set]; rw [if_neg (fun e => hs e.symm)]
        | some a => rfl
  refine ⟨hc.1, fun v hv => ?_, fun hn => ?_⟩
  · have := key l c
    rw [hv] at this
    simp only [Conn.get, this]
  · have hf : (l.filter fun a => decide (a.1 = s)) = [] := by
      rw [List.filter_eq_nil_iff]
      intro a ha
      simpa using hn a ha
    have := key l c
    rw [hf, List.getLast?_nil, hc.2] at this
    constructor
    · intro e; subst e; simp only [Conn.get, this]; rfl
    · intro e; subst e; simp only [Conn.get, this]; rfl

example : ∃ c, Conn.ofUrl Url.empty = .ok c ∧
    (c.run [(.readTimeout, 5), (.doInput, 0), (.readTimeout, 7)]).get .readTimeout = .ok 7 := ⟨_, rfl, by decide⟩

/-- C189 fails: the five other settings are undefined until they are assigned, and a connection cannot be
made without a URL or with one made from a text. -/
theorem C189_unset_wrong : (∀ u c, Conn.ofUrl u = .ok c → ∀ s, s ≠ .doInput → s ≠ .doOutput → c.get s = .ub) ∧
    Conn.make = .ub ∧ ∀ spec, Conn.ofUrl (Url.ofText spec) = .ub := by
  refine ⟨fun u c h s h1 h2 => ?_, rfl, fun _ => rfl⟩
  unfold Conn.ofUrl at h
  cases hp : u.port with
  | none => simp [Url.copy, hp] at h
  | some p =>
    rw [(C188_copy_partial u hp).1, Outcome.bind_ok, (C188_copy_partial u hp).1, Outcome.bind_ok] at h
    cases h
    cases s <;> first | rfl | contradiction

end Verif.Net
