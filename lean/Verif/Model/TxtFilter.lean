import Verif.Model.Text

/-!
# `_filter_txt_file`  (src/magnopy/io/txt/internal.py 1027-1097)
-/

set_option autoImplicit false

namespace Magnopy.Txt

/-- The loop over the lines of the file, internal.py 1073-1083: the kept lines with their positions, where `n` is the
index of the next line. -/
def filterFrom : ℕ → List Str → List (Str × ℕ)
  | _, [] => []
  | n, l :: ls =>
    if l.startsWith ['#'] then filterFrom (n + 1) ls
    else
      let l' := l.beforeHash.strip
      if l' ≠ [] then (l', n + 1) :: filterFrom (n + 1) ls else filterFrom (n + 1) ls

/-- `_filter_txt_file` on the lines of the file; the two returned lists are one list of pairs.  Without
`save_filtered` (see `TxtFile`). -/
def filter (lines : List Str) : List (Str × ℕ) := filterFrom 0 lines

end Magnopy.Txt
