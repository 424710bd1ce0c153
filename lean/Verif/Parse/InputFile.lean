import Verif.Parse.Split
import Verif.Parse.PropsComments

/-!
# Splitting an input file: the two entry points

Code: `ParseInputFile` and `SplitIntoConfigAndInput`, /repo/core/include/bertini2/io/parsing/classic_utilities.hpp 379-398 and
404-430.

Simplified: only files with a `CONFIG` marker (`both`; `none` stands for the other alternatives, see Split.lean); the file is
its text (`FileToString` is not modelled).
-/

namespace B2.Parse

/-- `ParseInputFile`, classic_utilities.hpp 379-398: comments are stripped first. -/
def parseInputFile (s : List Char) : Option CI := both (strip s)

/-- `SplitIntoConfigAndInput`, classic_utilities.hpp 404-416 (423-426 for the version with references): the text of the file
is split as it is. Used by `AlgoBuilder::ClassicBuild`, /repo/core/src/blackbox/algorithm_builder.cpp 33-36. -/
def splitFile (s : List Char) : Option CI := both s

end B2.Parse
