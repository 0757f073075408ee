import Verif.Model.Concurrent
import Verif.Model.Engine
import Verif.Model.Json
import Verif.Props.Catalogue
import Verif.Props.Codec
import Verif.Props.Concurrent
import Verif.Props.Data
import Verif.Props.Depth
import Verif.Props.Determinism
import Verif.Props.EndToEnd
import Verif.Props.Engine
import Verif.Props.Equality
import Verif.Props.Extent
import Verif.Model.Cost
import Verif.Props.Cost
import Verif.Props.Failures
import Verif.Props.File
import Verif.Props.Filters
import Verif.Props.Found
import Verif.Props.Handlers
import Verif.Props.Index
import Verif.Props.Json
import Verif.Props.Mixing
import Verif.Props.MixingWitness
import Verif.Props.Optimize
import Verif.Props.Ordering
import Verif.Props.Reload
import Verif.Props.Rewrite
import Verif.Props.Scores
import Verif.Props.Search
import Verif.Props.Suggest
import Verif.Props.Size
import Verif.Props.Price
import Verif.Props.Text
import Verif.Props.Truncate
import Verif.Props.FileSize
import Verif.Props.TextSize
import Verif.Props.Lookup
import Verif.Props.Distinct
import Verif.Props.Story
import Verif.Props.Heap
import Verif.Props.Reentrant
import Verif.Props.Arena
import Verif.Props.RefEngine
import Verif.Props.Cents
import Verif.Props.Kept
import Verif.Props.Callbacks
import Verif.Props.Locks
import Verif.Props.Alike
import Verif.Props.SerdeArray
import Verif.Props.Guesses
import Verif.Props.Glue
import Verif.Props.Extend
import Verif.Props.LoadCost
import Verif.Props.Depends
import Verif.Model.Sorting
import Verif.Props.Sorting
import Verif.Model.Statistics
import Verif.Props.Sizes
import Verif.Model.IndexCost
import Verif.Props.IndexCost
import Verif.Model.SearchCost
import Verif.Props.SearchCost
import Verif.Props.LoadLeast
import Verif.Lemmas.Special
import Verif.Model.Popularity
import Verif.Props.Popularity
import Verif.Props.Portable
import Verif.Props.Rank
import Verif.Props.Inside
import Verif.Props.Joined
import Verif.Props.Bounded
import Verif.Props.Hidden
import Verif.Props.Suggestions
import Verif.Model.SuggestCost
import Verif.Props.SuggestCost
import Verif.Model.Laws
import Verif.Props.Laws
import Verif.Props.Masked
import Verif.Props.Twins
import Verif.Props.Shuffle
import Verif.Props.Answers
import Verif.Props.LoadExact
import Verif.Props.Selections
import Verif.Props.Tells
import Verif.Props.AnyFile
import Verif.Props.Patch
import Verif.Props.AnyRanks
import Verif.Props.Rename
import Verif.Props.Reprice
import Verif.Props.Loose
import Verif.Props.Rebrand
import Verif.Props.Shop
import Verif.Props.Instances
