import Verif.Props.Bst
import Verif.Props.MContext
import Verif.Props.StringChunk
import Verif.Props.MsgContext
import Verif.Props.Filter
import Verif.Props.Name
import Verif.Props.Parser
import Verif.Props.Generator
import Verif.Props.IpText
import Verif.Props.Cache
import Verif.Props.CacheTtl
import Verif.Props.IpChunk
import Verif.Props.IpMisc
import Verif.Props.TimedTask
import Verif.Props.Prime
import Verif.Props.Arr
import Verif.Props.AddressList
import Verif.Props.StableBuffer
import Verif.Props.StringList
import Verif.Props.ReadLine
import Verif.Props.Config
import Verif.Props.Reload
import Verif.Props.Groups
import Verif.Props.HostsContainer
import Verif.Props.IHeader
import Verif.Props.Hosts
import Verif.Props.DnsCache
import Verif.Props.Forwarder
import Verif.Props.Pipeline
import Verif.Props.TcpStream
import Verif.Props.SocketPool
import Verif.Props.TcpFrontend
import Verif.Props.TcpPool
import Verif.Props.GoodIpList
import Verif.Props.Statistic
import Verif.Props.Logs
import Verif.Props.CacheFile
import Verif.Props.ReplaceStr
import Verif.Props.Show
import Verif.Props.Downloader
import Verif.Props.HostsUpdate
import Verif.Props.SameName
import Verif.Props.DnsCacheAlias
import Verif.Props.Startup
import Verif.Props.Starts
import Verif.Props.Update
import Verif.Props.UpdateEnd
import Verif.Props.Descriptors
import Verif.Props.Permissions
import Verif.Props.ExpandPath
import Verif.Props.Whole
import Verif.Props.CacheWhole
import Verif.Props.Sized
import Verif.Props.OwnEdns
import Verif.Props.WholeQuery
import Verif.Props.KnownAgain
import Verif.Props.Learned
import Verif.Props.TcpUp
import Verif.Props.Prepare
import Verif.Props.Folder
import Verif.Props.UpdateHappens
import Verif.Props.EndToEnd
import Verif.Props.Answered
import Verif.Props.AnsweredAll
import Verif.Props.SameNameAll
import Verif.Lemmas.Shared
import Verif.Props.Shared
import Verif.Props.HostsLoop
import Verif.Props.Alias
import Verif.Props.Progress
import Verif.Props.Crowded
import Verif.Props.Lifecycle
import Verif.Props.LifecycleFair
import Verif.Props.Locks
import Verif.Props.Memory
import Verif.Props.Threads
import Verif.Props.ThreadsProgress
import Verif.Props.UdpUp
import Verif.Props.Local
import Verif.Props.StatPage
import Verif.Props.Footprint
import Verif.Props.HostsFate
import Verif.Props.PipelineFate
import Verif.Props.HeaderAll
import Verif.Props.EndToEndAll
import Verif.Props.NoQuestion
import Verif.Props.ServerNames
import Verif.Props.ShortMx
import Verif.Props.LongName
import Verif.Props.ShortAddress
import Verif.Props.OwnQuery
