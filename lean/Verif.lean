import Verif.Bitset.Props
import Verif.OrdVec.Props
import Verif.WordAlig.Props
import Verif.StrProc.Props
import Verif.Nbest.Props
import Verif.Awk.Props
import Verif.Vocab.Props
import Verif.Stack.Props
import Verif.MultiStack.Props
import Verif.Trie.Props
import Verif.WordPred.Props
import Verif.Socket.Props
import Verif.UserId.Props
import Verif.PhrTable.Props
import Verif.LevelDb.Props
import Verif.EditDist.Props
import Verif.EditDist.WordProps
import Verif.WordGraph.PrevProps
import Verif.WordGraph.BuildProps
import Verif.WordGraph.WeightProps
import Verif.WordGraph.PruneProps
import Verif.WordGraph.NbProps
import Verif.WordGraph.TopolProps
import Verif.WordGraph.UsefulProps
import Verif.Decoder.SerProps
import Verif.Decoder.RaceProps
import Verif.Decoder.LiveProps
import Verif.Decoder.ReleaseProps
import Verif.Server.Props
import Verif.PhrExtract.Props
import Verif.Meta.Props
import Verif.Search.Progress
import Verif.Search.RefProps
import Verif.Search.Decode
import Verif.Search.Optimal
import Verif.Search.Exhaust
import Verif.Search.Order
import Verif.Search.Prefix
import Verif.Search.Cache
import Verif.Search.History
import Verif.Search.Heur
import Verif.Search.WgModel
import Verif.Search.WgText
import Verif.Search.WgInv
import Verif.Search.WgProps
import Verif.Search.WgThms
import Verif.Search.WgAll
import Verif.Search.WgTopo
import Verif.Search.WgEx
import Verif.TrieVecs.Model
import Verif.TrieVecs.Props
import Verif.LangModel.Model
import Verif.LangModel.Lemmas
import Verif.LangModel.Train
import Verif.LangModel.Props
import Verif.LangModel.Prob
import Verif.LangModel.Score
import Verif.LangModel.File
import Verif.Common.Sum
import Verif.Hmm.Model
import Verif.Hmm.Viterbi
import Verif.Hmm.PropsVit
import Verif.Hmm.Forward
import Verif.Hmm.PropsFwd
import Verif.Hmm.Suff
import Verif.Hmm.SuffLemmas
import Verif.Hmm.PropsSuff
import Verif.SentHandler.Model
import Verif.SentHandler.Lemmas
import Verif.SentHandler.Props
import Verif.Metrics.Ngram
import Verif.Metrics.Bleu
import Verif.Metrics.BleuProps
import Verif.Metrics.Wer
import Verif.Metrics.Chrf
import Verif.Metrics.Gtm
import Verif.KbMira.Model
import Verif.KbMira.Props
import Verif.Ibm.Em
import Verif.Ibm.Model
import Verif.Ibm.Train
import Verif.Ibm.PropsScore
import Verif.Ibm.PropsPartial
import Verif.Ibm.PropsNorm
import Verif.Ibm.PropsEm
import Verif.Ibm.Slm
import Verif.LexMerge.Model
import Verif.LexMerge.Merge
import Verif.LexMerge.Prune
import Verif.LexMerge.LexTable
import Verif.WgProc.Model
import Verif.WgProc.Basic
import Verif.WgProc.CorrProps
import Verif.WgProc.NbProps
import Verif.WgProc.Tables
import Verif.WgProc.Sweep
import Verif.WgProc.Rep
import Verif.WgProc.HistProps
import Verif.WgProc.ScoreProps
import Verif.Feat.Model
import Verif.Feat.Spec
import Verif.Feat.Lemmas
import Verif.Feat.Score
import Verif.Feat.Recomb
import Verif.Feat.HeurModel
import Verif.Feat.Heur
import Verif.Ecm.Model
import Verif.Ecm.Props
import Verif.Cat.Model
import Verif.Cat.Lemmas
import Verif.Cat.Props
import Verif.Srf.Model
import Verif.Srf.Sets
import Verif.Srf.Count
import Verif.Srf.Props
import Verif.HatTable.Model
import Verif.HatTable.Lemmas
import Verif.HatTable.Props
import Verif.HatTable.Iter
import Verif.PhrTrain.Model
import Verif.PhrTrain.Lemmas
import Verif.PhrTrain.Props
import Verif.PhrTrain.PrintLoad
import Verif.PhrTrain.RoundTrip
import Verif.AligFile.Model
import Verif.AligFile.Giza
import Verif.AligFile.MyFmt
import Verif.AligFile.Ops
import Verif.AligFile.OpsFile
import Verif.AligFile.ContModel
import Verif.AligFile.Cont
import Verif.AligFile.Exh
import Verif.WordGraph.FileProps
import Verif.WordGraph.NbComps
import Verif.WgHandler.Props
import Verif.MathFuncs.Props
import Verif.SegmLen.Props
import Verif.SegmLen.DistProps
import Verif.NgramDb.Model
import Verif.NgramDb.Props
import Verif.NgramDb.Scan
import Verif.NgramDb.Tool
import Verif.Dhs.Model
import Verif.Dhs.Props
import Verif.Dhs.Best
import Verif.Dhs.Layout
import Verif.Dhs.Moves
import Verif.Online.Model
import Verif.Online.Props
import Verif.Online.Batch
import Verif.Online.Rate
import Verif.Online.Interp
import Verif.SwLi.Model
import Verif.SwLi.Score
import Verif.SwLi.Len
import Verif.SwLi.LenProb
import Verif.SwLi.Interp
import Verif.Desc.Model
import Verif.Desc.Props
import Verif.Proto.Model
import Verif.Proto.Props
import Verif.Meta.Json
import Verif.Meta.JsonProps
import Verif.Meta.Check
import Verif.Common.SMap
import Verif.Dict.Model
import Verif.Dict.Lemmas
import Verif.Dict.Keys
import Verif.Dict.Props
import Verif.Opts.Model
import Verif.Opts.Props
import Verif.LdbLex.Model
import Verif.LdbLex.Props
import Verif.LdbStore.Model
import Verif.LdbStore.Store
import Verif.LdbStore.Tool
import Verif.Bdb.Model
import Verif.Bdb.Props
import Verif.AligTab.Model
import Verif.AligTab.Lemmas
import Verif.AligTab.Props
import Verif.AligTab.Pipe
import Verif.Anji.Model
import Verif.Anji.Hist
import Verif.Anji.File
import Verif.Anji.Props
import Verif.CorpusTools.Wer
import Verif.CorpusTools.Clean
import Verif.PhrTools.Runs
import Verif.PhrTools.Merge
import Verif.PhrTools.MergeProps
import Verif.PhrTools.Table
import Verif.PhrTools.TableProps
import Verif.PhrTools.NbestProps
import Verif.ImtSes.Model
import Verif.ImtSes.Props
import Verif.WordPen.Props
import Verif.NgramScripts.Props
import Verif.Preproc.TmModel
import Verif.Preproc.TmProps
import Verif.Preproc.TmIo
import Verif.Preproc.LmModel
import Verif.Preproc.LmProps
import Verif.Preproc.LmIo
import Verif.Preproc.DecModel
import Verif.Preproc.DecProps
import Verif.Preproc.Categ
import Verif.Preproc.CategProps
import Verif.Preproc.Xml
import Verif.Preproc.XmlProps
import Verif.Preproc.XmlCons
import Verif.Confid.Model
import Verif.Confid.Props
import Verif.NbTools.Model
import Verif.NbTools.Basic
import Verif.NbTools.Rescore
import Verif.NbTools.Aug
import Verif.NbTools.Merge
import Verif.NbTools.Segm
import Verif.NbTools.Filt
import Verif.TextTools.Model
import Verif.TextTools.Merge
import Verif.TextTools.Filter
import Verif.TextTools.Giza
import Verif.DynClass.Model
import Verif.DynClass.Props
import Verif.Exper.Model
import Verif.Exper.Shuffle
import Verif.Exper.Conf
import Verif.Exper.Counts
import Verif.Exper.Vocab
import Verif.Exper.Rr
import Verif.HatTrie.Model
import Verif.HatTrie.Lookup
import Verif.HatTrie.Iter
import Verif.HatTrie.Props
import Verif.HatTrie.Erase
import Verif.HatTrie.Small
import Verif.CondTab.Model
import Verif.CondTab.Lemmas
import Verif.CondTab.Props
import Verif.CondTab.PropsNbest
import Verif.CondTab.PropsEnc
import Verif.Capit.Props
import Verif.NbFile.Props
import Verif.Handler.Props
import Verif.DevPairs.Props
